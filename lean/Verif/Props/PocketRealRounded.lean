import Verif.Lemmas.PocketRFExec
import Verif.Props.PocketRounded

/-! # C94: the FFT of real data in floating point -/

set_option linter.unusedSimpArgs false
set_option linter.unusedSectionVars false
set_option linter.unusedVariables false

namespace Verif
open PocketF

variable {F : Type} [Zero F] [Add F] [Sub F] [Mul F] [Fma F] [Neg F]

namespace PocketF

variable {A : FloatArithNeg F} {h : ℝ}

theorem radList_mem : ∀ {fs : List ℕ}, Pocket.RadList fs → ∀ f ∈ fs, f = 2 ∨ f = 4 ∨ (f.Prime ∧ f % 2 = 1)
  | _ :: fs, ⟨h1, _, h3⟩, g, hg => by
    rcases List.mem_cons.1 hg with e | e
    · rw [e]; exact h1
    · exact radList_mem h3 g e

theorem two_pow_le_prod : ∀ {fs : List ℕ}, (∀ f ∈ fs, 2 ≤ f) → 2 ^ fs.length ≤ fs.prod
  | [], _ => by simp
  | f :: fs, h => by
    rw [List.length_cons, List.prod_cons, pow_succ, mul_comm]
    exact Nat.mul_le_mul (h f (by simp)) (two_pow_le_prod fun g hg => h g (by simp [hg]))

theorem goodFs_of {N : ℕ} {tw : ℕ → Cx F} (hN : 0 < N) (ht : TwOk A h N tw) :
    ∀ (fs : List ℕ) (l1 : ℕ), Pocket.RadList fs → (∀ f ∈ fs, f ≤ 5) → l1 * fs.prod = N → GoodFs A h N l1 (rtwiddles tw N l1 fs)
  | [], l1, _, _, e => by rw [rtwiddles, GoodFs]; simpa using e
  | ip :: fs, l1, ⟨r1, r2, r3⟩, h5, e => by
    have hN' : N = l1 * ip * fs.prod := by rw [← e, List.prod_cons, mul_assoc]
    have hpos : 0 < l1 * ip := by
      rcases Nat.eq_zero_or_pos (l1 * ip) with q | q
      · rw [q] at hN'; omega
      · exact q
    have hp0 : 0 < fs.prod := by
      rcases Nat.eq_zero_or_pos fs.prod with q | q
      · rw [q] at hN'; omega
      · exact q
    have e1 : N / (l1 * ip) = fs.prod := by rw [hN', Nat.mul_div_cancel_left _ hpos]
    rw [rtwiddles, GoodFs, e1]
    obtain ⟨g1, g2⟩ := rtwiddle_near (A := A) (h := h) hN ht hN'
    refine ⟨⟨?_, fs.prod, by rw [g1]; exact hN', hp0, by rw [g1]; exact r2, by rw [g1]; exact g2⟩, ?_⟩
    · rw [g1]
      have := h5 ip (by simp)
      rcases r1 with q | q | ⟨q1, q2⟩
      · exact Or.inl q
      · exact Or.inr (Or.inr (Or.inl q))
      · have := q1.two_le
        omega
    · rw [g1]
      exact goodFs_of hN ht fs (l1 * ip) r3 (fun f hf => h5 f (by simp [hf])) (by rw [hN'])

theorem rtwiddles_length (tw : ℕ → Cx F) (N : ℕ) : ∀ (fs : List ℕ) (l1 : ℕ), (rtwiddles tw N l1 fs).length = fs.length
  | [], _ => rfl
  | ip :: fs, l1 => by rw [rtwiddles, List.length_cons, rtwiddles_length tw N fs, List.length_cons]

theorem smooth_factors {n : ℕ} (hn : 0 < n) (h5 : Smooth5 n) : ∃ fs, Pocket.rfactorize n = .ok fs ∧ fs.prod = n ∧ Pocket.RadList fs ∧
    (∀ f ∈ fs, f ≤ 5) ∧ fs.length ≤ Nat.log 2 n := by
  obtain ⟨fs, e1, e2, e3⟩ := Pocket.rfactorize_ok hn
  have hm := radList_mem e3
  refine ⟨fs, e1, e2, e3, fun f hf => ?_, ?_⟩
  · rcases hm f hf with q | q | q
    · omega
    · omega
    · exact h5 f q.1 (e2 ▸ List.dvd_prod hf)
  · apply Nat.le_log_of_pow_le (by norm_num)
    rw [← e2]
    apply two_pow_le_prod
    intro f hf
    rcases hm f hf with q | q | q
    · omega
    · omega
    · exact q.1.two_le

theorem halfComplex_enc (D : ℕ → ℂ) (i : ℕ) : halfComplex D i = Pocket.enc D i := rfl

/-- the buffer as the half of a spectrum -/
noncomputable def bins (v : ℕ → ℝ) (c : ℕ) : ℂ := ⟨v (2 * c - 1), v (2 * c)⟩

theorem inverse_idft {n : ℕ} (hn : 0 < n) (v : ℕ → ℝ) (j : ℕ) :
    halfComplexInverse n v j = (Pocket.idft n (Pocket.hx n (bins v)) j).re := by
  rw [Pocket.idft_hx hn]
  unfold halfComplexInverse
  congr 1
  · congr 2
    apply Finset.sum_congr rfl
    intro k _
    rw [Complex.mul_re]
    have e1 : 2 * (k + 1) - 1 = 2 * k + 1 := by omega
    have e2 : 2 * (k + 1) = 2 * k + 2 := by omega
    simp only [bins, e1, e2, Pocket.w, Pocket.cR, Pocket.cI]
    push_cast
    simp
  · split
    · rename_i he
      have e1 : 2 * (n / 2) - 1 = n - 1 := by omega
      simp only [bins, e1]
    · rfl

theorem hx_bins_enc {n : ℕ} (hn : 0 < n) (v : ℕ → ℝ) {p : ℕ} (hp : p < n) : Pocket.enc (Pocket.hx n (bins v)) p = v p := by
  by_cases p0 : p = 0
  · subst p0
    rw [Pocket.enc_zero, Pocket.hx_zero]
    simp [bins]
  rcases Nat.even_or_odd' p with ⟨c, rfl | rfl⟩
  · rw [Pocket.enc_im (c := c) (by omega) rfl, Pocket.hx_low (by omega) (by omega)]
    rfl
  · rw [Pocket.enc_re (c := c + 1) (by omega) (by omega)]
    have e : 2 * (c + 1) - 1 = 2 * c + 1 := by omega
    by_cases hm : 2 * (c + 1) = n
    · rw [Pocket.hx_mid (by omega) hm, Complex.ofReal_re]
      simp only [bins, e]
    · rw [Pocket.hx_low (by omega) (by omega)]
      simp only [bins, e]

theorem getD_mem {α : Type} {x : List α} {n : ℕ} (hn : n < x.length) (d : α) : x.getD n d ∈ x := by
  rw [List.getD_eq_getElem?_getD, List.getElem?_eq_getElem hn]
  exact List.getElem_mem hn

theorem tab_getD {α : Type} {n k : ℕ} (f : ℕ → α) (d : α) (hk : k < n) : (Pocket.tab n f).getD k d = f k := by
  rw [List.getD_eq_getElem?_getD, Pocket.tab_get?, if_pos hk]; rfl

/-- the spectrum of real samples -/
noncomputable def rdftSum (A : FloatArithNeg F) (x : List F) (k : ℕ) : ℂ :=
  ∑ j ∈ Finset.range x.length, (A.val (x.getD j 0) : ℂ) * rootOfUnity x.length (-((j : ℤ) * k))

theorem rdftSum_rdft (x : List F) : rdftSum A x = Pocket.rdft x.length (fun j => A.val (x.getD j 0)) := by
  funext k
  unfold rdftSum Pocket.rdft
  apply Finset.sum_congr rfl
  intro m _
  rw [Pocket.w_ru]
  simp only [Pocket.sgn, Nat.cast_mul, if_true]
  congr 2
  ring

theorem cl_of (h1 : 1 ≤ h) {L : RLits F} {P X N : ℝ} (hP : 1 ≤ P) (hN : 1 ≤ N) (hX : 0 ≤ X) (hL : RLitsOk A h L) (htu : A.tiny ≤ A.u)
    (h4 : 4 ≤ A.huge) (hu : 2000 * h ^ 2 * P * A.u ≤ 1) (hH : 2400000 * h ^ 3 * P * N * (X + A.tiny) ≤ A.huge) : CL A h L := by
  have u0 := A.u_nonneg
  have t0 := A.tiny_nonneg
  have E : Env A 0 h 2000 := by
    refine ⟨le_rfl, h1, ?_, ?_⟩
    · have : 2000 * h ^ 2 * 1 * A.u ≤ 2000 * h ^ 2 * P * A.u := by gcongr
      linarith
    · have b : h ^ 2 ≤ h ^ 3 := pow_le_pow_right₀ h1 (by norm_num)
      have : 2000 * h ^ 2 * 1 * 1 * (0 + A.tiny) ≤ 2400000 * h ^ 3 * P * N * (X + A.tiny) := by gcongr; norm_num
      linarith
  exact CL.of E (by norm_num) htu h4 hL

theorem forward_spectrum (A : FloatArithNeg F) (h X : ℝ) (L : RLits F) (tw : ℕ → Cx F) (x scratch : List F) (hx : x ≠ [])
    (hs : scratch.length = x.length) (h5 : Smooth5 x.length) (h1 : 1 ≤ h) (hL : RLitsOk A h L) (ht : TableOk A h x.length tw)
    (htu : A.tiny ≤ A.u) (h4 : 4 ≤ A.huge) (hf : ∀ c ∈ x, A.finite c ∧ |A.val c| ≤ X)
    (hu : 2000 * h ^ 2 * (Nat.log 2 x.length + 1) * A.u ≤ 1)
    (hH : 2400000 * h ^ 3 * (Nat.log 2 x.length + 1) * x.length * (X + A.tiny) ≤ A.huge) :
    ∃ (B : ℕ → F) (Z : ℕ → ℂ), rfftExec L tw true none x scratch = .ok (Pocket.tab x.length B) ∧
      (∀ i, i < x.length → A.finite (B i) ∧ A.val (B i) = Pocket.enc Z i) ∧
      ∀ c, ‖Z c - rdftSum A x c‖ ≤ 600 * h * x.length * Nat.log 2 x.length * (A.u * X + A.tiny) := by
  have hn : 0 < x.length := List.length_pos_iff.2 hx
  have u0 := A.u_nonneg
  have t0 := A.tiny_nonneg
  have hX : 0 ≤ X := (abs_nonneg _).trans (hf _ (List.getElem_mem hn)).2
  have hfx : ∀ n, n < x.length → A.finite (x.getD n 0) ∧ |A.val (x.getD n 0)| ≤ X := fun n hn => hf _ (getD_mem hn 0)
  rw [rdftSum_rdft]
  by_cases hn1 : x.length = 1
  · refine ⟨fun n => x.getD n 0, Pocket.rdft x.length (fun j => A.val (x.getD j 0)), ?_, fun i hi => ⟨(hfx i hi).1, ?_⟩, fun c => ?_⟩
    · unfold rfftExec
      rw [if_neg (by omega), if_pos hn1, ← list_tabC]
    · have : i = 0 := by omega
      subst this
      rw [Pocket.enc_zero, hn1]
      simp [Pocket.rdft, Pocket.w_zero]
    · rw [sub_self, norm_zero]
      positivity
  obtain ⟨fs, e1, e2, e3, e4, e5⟩ := smooth_factors hn h5
  have hN1 : (1 : ℝ) ≤ x.length := by exact_mod_cast hn
  have hP1 : (1 : ℝ) ≤ Nat.log 2 x.length + 1 := by have : (0 : ℝ) ≤ Nat.log 2 x.length := Nat.cast_nonneg _; linarith
  have H := cl_of h1 hP1 hN1 hX hL htu h4 hu hH
  have hg := goodFRev_of _ 1 [] one_pos (goodFs_of hn ht.twOk fs 1 e3 e4 (by rw [e2, one_mul])) rfl
  rw [List.append_nil] at hg
  have hl5 : (fs.length : ℝ) ≤ Nat.log 2 x.length := by exact_mod_cast e5
  have key := r2hcLoop_near (A := A) (h := h) (L := L) (N := x.length) (X := X) (P := Nat.log 2 x.length + 1)
    (D := A.u * X + A.tiny) (x := fun j => A.val (x.getD j 0)) hn H h1 hX (fun n hn => (hfx n hn).2) hu hH rfl
    (rtwiddles tw x.length 1 fs).reverse x.length 1 0 (fun n => x.getD n 0)
    (Pocket.fspec x.length 1 (fun j => A.val (x.getD j 0))) scratch (by omega) hg hs le_rfl
    (by rw [List.length_reverse, rtwiddles_length]; linarith) (fun r => Pocket.fspec_herm _ _ _ _)
    (fun n hn => ⟨(hfx n hn).1, by
      unfold Pocket.rows
      rw [Nat.div_one, Nat.mod_one, Pocket.enc_zero]
      simp [Pocket.fspec, Pocket.w_zero]⟩)
    (fun r c hr => by simp)
  obtain ⟨B, Z, k1, k2, k3⟩ := key
  rw [← list_tabC] at k1
  refine ⟨B, Z, ?_, k2, fun c => (k3 c).trans ?_⟩
  · unfold rfftExec
    rw [if_neg (by omega), if_neg hn1, e1, Out.ok_bind]
    dsimp only
    rw [if_pos rfl, k1, Out.ok_bind]
  · rw [List.length_reverse, rtwiddles_length, zero_add]
    calc (x.length : ℝ) * (600 * h * fs.length * (A.u * X + A.tiny))
        ≤ x.length * (600 * h * Nat.log 2 x.length * (A.u * X + A.tiny)) := by gcongr
      _ = _ := by ring

end PocketF

/-- **C94**: the forward transform of real data of every length without prime factors above 5, in any floating point format:
no overflow, and every entry of the half-complex result is within `600 h n log₂ n` rounding errors of the exact one. -/
theorem C94_forward (A : FloatArithNeg F) (h X : ℝ) (L : RLits F) (tw : ℕ → Cx F) (x scratch : List F) (hx : x ≠ [])
    (hs : scratch.length = x.length) (h5 : Smooth5 x.length) (h1 : 1 ≤ h) (hL : RLitsOk A h L) (ht : TableOk A h x.length tw)
    (htu : A.tiny ≤ A.u) (h4 : 4 ≤ A.huge) (hf : ∀ c ∈ x, A.finite c ∧ |A.val c| ≤ X)
    (hu : 2000 * h ^ 2 * (Nat.log 2 x.length + 1) * A.u ≤ 1)
    (hH : 2400000 * h ^ 3 * (Nat.log 2 x.length + 1) * x.length * (X + A.tiny) ≤ A.huge) :
    ∃ y, rfftExec L tw true none x scratch = .ok y ∧ y.length = x.length ∧ ∀ i, i < x.length →
      A.finite (y.getD i 0) ∧
      |A.val (y.getD i 0) - halfComplex (fun k => ∑ j ∈ Finset.range x.length,
            (A.val (x.getD j 0) : ℂ) * rootOfUnity x.length (-((j : ℤ) * k))) i|
        ≤ 600 * h * x.length * Nat.log 2 x.length * (A.u * X + A.tiny) := by
  obtain ⟨B, Z, e, h2, h3⟩ := forward_spectrum A h X L tw x scratch hx hs h5 h1 hL ht htu h4 hf hu hH
  refine ⟨_, e, by simp, fun i hi => ?_⟩
  rw [tab_getD _ _ hi, (h2 i hi).2, halfComplex_enc]
  refine ⟨(h2 i hi).1, ?_⟩
  rw [← enc_sub]
  exact enc_abs h3 i

/-- **C94**: the backward transform likewise: every sample is within `600 h n log₂ n` rounding errors, relative to twice the
largest entry, of the sample of the real signal with the given half-complex spectrum. -/
theorem C94_backward (A : FloatArithNeg F) (h X : ℝ) (L : RLits F) (tw : ℕ → Cx F) (x scratch : List F) (hx : x ≠ [])
    (hs : scratch.length = x.length) (h5 : Smooth5 x.length) (h1 : 1 ≤ h) (hL : RLitsOk A h L) (ht : TableOk A h x.length tw)
    (htu : A.tiny ≤ A.u) (h4 : 4 ≤ A.huge) (hf : ∀ c ∈ x, A.finite c ∧ |A.val c| ≤ X)
    (hu : 2000 * h ^ 2 * (Nat.log 2 x.length + 1) * A.u ≤ 1)
    (hH : 2400000 * h ^ 3 * (Nat.log 2 x.length + 1) * x.length * (2 * X + A.tiny) ≤ A.huge) :
    ∃ y, rfftExec L tw false none x scratch = .ok y ∧ y.length = x.length ∧ ∀ j, j < x.length →
      A.finite (y.getD j 0) ∧
      |A.val (y.getD j 0) - halfComplexInverse x.length (fun i => A.val (x.getD i 0)) j|
        ≤ 600 * h * x.length * Nat.log 2 x.length * (A.u * (2 * X) + A.tiny) := by
  have hn : 0 < x.length := List.length_pos_iff.2 hx
  have u0 := A.u_nonneg
  have t0 := A.tiny_nonneg
  have hX : 0 ≤ X := (abs_nonneg _).trans (hf _ (List.getElem_mem hn)).2
  have hfx : ∀ n, n < x.length → A.finite (x.getD n 0) ∧ |A.val (x.getD n 0)| ≤ X := fun n hn => hf _ (getD_mem hn 0)
  by_cases hn1 : x.length = 1
  · refine ⟨x, ?_, rfl, fun j hj => ⟨(hfx j hj).1, ?_⟩⟩
    · unfold rfftExec
      rw [if_neg (by omega), if_pos hn1]
    · have : j = 0 := by omega
      subst this
      rw [hn1]
      simp [halfComplexInverse]
  obtain ⟨fs, e1, e2, e3, e4, e5⟩ := smooth_factors hn h5
  have hN1 : (1 : ℝ) ≤ x.length := by exact_mod_cast hn
  have hP1 : (1 : ℝ) ≤ Nat.log 2 x.length + 1 := by have : (0 : ℝ) ≤ Nat.log 2 x.length := Nat.cast_nonneg _; linarith
  have hX2 : 0 ≤ 2 * X := by linarith
  have H := cl_of h1 hP1 hN1 hX2 hL htu h4 hu hH
  have hl5 : (fs.length : ℝ) ≤ Nat.log 2 x.length := by exact_mod_cast e5
  obtain ⟨v, hv⟩ : ∃ v : ℕ → ℝ, v = fun i => A.val (x.getD i 0) := ⟨_, rfl⟩
  rw [← hv]
  have hxH := Pocket.hx_herm hn (bins v)
  have key := hc2rLoop_near (A := A) (h := h) (L := L) (N := x.length) (X := 2 * X) (P := Nat.log 2 x.length + 1)
    (D := A.u * (2 * X) + A.tiny) (x := Pocket.hx x.length (bins v)) hn H h1 hX2 hxH
    (herm_norm hn hxH (fun p hp => by rw [hx_bins_enc hn v hp, hv]; exact (hfx p hp).2)) hu hH rfl
    (rtwiddles tw x.length 1 fs) 1 x.length 0 (fun n => x.getD n 0)
    (fun _ => Pocket.hx x.length (bins v)) scratch one_pos (by omega) (goodFs_of hn ht.twOk fs 1 e3 e4 (by rw [e2, one_mul])) hs le_rfl
    (by rw [rtwiddles_length]; linarith) (fun r => hxH)
    (fun n hn' => ⟨(hfx n hn').1, by
      unfold Pocket.rows
      rw [Nat.mod_eq_of_lt hn', hx_bins_enc hn v hn', hv]⟩)
    (fun r c hr => by
      have : r = 0 := by omega
      subst this
      simp [Pocket.bspec, Pocket.w_zero])
  obtain ⟨B, k1, k2⟩ := key
  rw [← list_tabC] at k1
  refine ⟨Pocket.tab x.length B, ?_, by simp, fun j hj => ?_⟩
  · unfold rfftExec
    rw [if_neg (by omega), if_neg hn1, e1, Out.ok_bind]
    dsimp only
    rw [if_neg Bool.false_ne_true, k1, Out.ok_bind]
  · rw [tab_getD _ _ hj]
    refine ⟨(k2 j hj).1, ?_⟩
    rw [inverse_idft hn]
    refine (k2 j hj).2.trans ?_
    rw [rtwiddles_length, zero_add]
    calc (x.length : ℝ) * (600 * h * fs.length * (A.u * (2 * X) + A.tiny))
        ≤ x.length * (600 * h * Nat.log 2 x.length * (A.u * (2 * X) + A.tiny)) := by gcongr
      _ = _ := by ring

/-- **C94**: the scale factor (`1/n` for the inverse transform) costs one more rounding of every entry. -/
theorem C94_scaled (A : FloatArithNeg F) (L : RLits F) (tw : ℕ → Cx F) (r2hc : Bool) (f : F) (x scratch y : List F)
    (hy : rfftExec L tw r2hc none x scratch = .ok y) (hff : A.finite f)
    (hf : ∀ c ∈ y, A.finite c ∧ |A.val f * A.val c| ≤ A.huge) :
    ∃ z, rfftExec L tw r2hc (some f) x scratch = .ok z ∧ z.length = y.length ∧ ∀ i, i < y.length →
      A.finite (z.getD i 0) ∧
      |A.val (z.getD i 0) - A.val f * A.val (y.getD i 0)| ≤ A.u * |A.val f * A.val (y.getD i 0)| + A.tiny := by
  have r1 : ∀ i, i < y.length → A.finite ((y.map (f * ·)).getD i 0) ∧
      |A.val ((y.map (f * ·)).getD i 0) - A.val f * A.val (y.getD i 0)| ≤ A.u * |A.val f * A.val (y.getD i 0)| + A.tiny := by
    intro i hi
    obtain ⟨a, b⟩ := hf _ (getD_mem hi 0)
    have e : (y.map (f * ·)).getD i 0 = f * y.getD i 0 := by
      rw [List.getD_eq_getElem?_getD, List.getD_eq_getElem?_getD, List.getElem?_eq_getElem hi,
        List.getElem?_eq_getElem (by simpa using hi)]
      simp
    rw [e]
    exact A.mul f _ hff a b
  have r2 : ∀ i, i < y.length → A.finite ((y.map (· * f)).getD i 0) ∧
      |A.val ((y.map (· * f)).getD i 0) - A.val f * A.val (y.getD i 0)| ≤ A.u * |A.val f * A.val (y.getD i 0)| + A.tiny := by
    intro i hi
    obtain ⟨a, b⟩ := hf _ (getD_mem hi 0)
    have e : (y.map (· * f)).getD i 0 = y.getD i 0 * f := by
      rw [List.getD_eq_getElem?_getD, List.getD_eq_getElem?_getD, List.getElem?_eq_getElem hi,
        List.getElem?_eq_getElem (by simpa using hi)]
      simp
    rw [e, mul_comm (A.val f)]
    rw [mul_comm] at b
    exact A.mul _ f a hff b
  unfold rfftExec at hy ⊢
  by_cases h0 : x.length = 0
  · rw [if_pos h0] at hy
    cases hy
  rw [if_neg h0] at hy ⊢
  by_cases h1 : x.length = 1
  · rw [if_pos h1] at hy ⊢
    cases hy
    exact ⟨_, rfl, by simp, r2⟩
  rw [if_neg h1] at hy ⊢
  obtain ⟨fs, e1, hy⟩ := Out.bind_eq_ok.1 hy
  obtain ⟨p, e2, hy⟩ := Out.bind_eq_ok.1 hy
  cases hy
  rw [e1, Out.ok_bind]
  dsimp only at e2 r1 r2 ⊢
  rw [e2, Out.ok_bind]
  by_cases hfs : fs.length % 2 = 0
  · exact ⟨_, rfl, by simp [hfs], by simp only [if_pos hfs]; exact r2⟩
  · exact ⟨_, rfl, by simp [hfs], by simp only [if_neg hfs]; exact r1⟩

namespace PocketF
open Pocket (ld st Fills fills_st fills_st_bind fills_bind fills_forN fills_all fills_pure' ld_tab tab tab_get? tab_length eq_tab copy_ok)

/-- the output of `r2c` -/
def r2cOut (n : ℕ) (B : ℕ → F) (O : ℕ → Cx F) (k : ℕ) : Cx F :=
  if k = 0 then ⟨B 0, 0⟩ else if 2 * k < n then ⟨B (2 * k - 1), B (2 * k)⟩ else if 2 * k = n then ⟨B (n - 1), 0⟩ else O k

theorem r2cExec_ok {L : RLits F} {tw : ℕ → Cx F} {fct : Option F} {n M : ℕ} (hn : 0 < n) {x B : ℕ → F} {tmp scratch : List F}
    (ht : tmp.length = n) (hB : rfftExec L tw true fct (tab n x) scratch = .ok (tab n B)) {O : ℕ → Cx F} (hM : n / 2 + 1 ≤ M) :
    r2cExec L tw fct (tab n x) tmp scratch (tab M O) = .ok (tab M (r2cOut n B O)) := by
  unfold r2cExec
  rw [tab_length, copy_ok le_rfl ht, Out.ok_bind, hB, Out.ok_bind, ld_tab hn, Out.ok_bind]
  obtain ⟨V, hV⟩ : ∃ V : ℕ → Cx F, V = r2cOut n B O := ⟨_, rfl⟩
  rw [← hV]
  have f1 : Fills M V (fun out => do
      let out ← st out 0 (⟨B 0, 0⟩ : Cx F)
      let out ← forN ((n - 1) / 2) (fun m out => do
        let ii := m + 1
        let i := 2 * ii - 1
        let re ← ld (tab n B) i
        let im ← ld (tab n B) (i + 1)
        st out ii ⟨re, im⟩) out
      let ii := (n - 1) / 2 + 1
      let i := 2 * ii - 1
      if i < n then do
        let re ← ld (tab n B) i
        st out ii ⟨re, 0⟩
      else pure out)
      (fun k => k = 0 ∨ (∃ m, m < (n - 1) / 2 ∧ k = m + 1) ∨ (2 * ((n - 1) / 2 + 1) - 1 < n ∧ k = (n - 1) / 2 + 1)) := by
    apply fills_st_bind (by omega)
    · rw [hV, r2cOut, if_pos rfl]
    apply fills_bind
    · apply fills_forN
      intro m hm
      simp only [show 2 * (m + 1) - 1 + 1 = 2 * (m + 1) by omega]
      simp only [ld_tab (show 2 * (m + 1) - 1 < n by omega), Out.ok_bind, ld_tab (show 2 * (m + 1) < n by omega)]
      apply fills_st (by omega)
      rw [hV, r2cOut, if_neg (by omega), if_pos (by omega)]
    · by_cases h : 2 * ((n - 1) / 2 + 1) - 1 < n
      · simp only [if_pos h, ld_tab h, Out.ok_bind]
        apply Fills.mono (fills_st (a := (n - 1) / 2 + 1) (by omega) ?_)
        · intro k _ hk; exact hk.2
        · rw [hV, r2cOut, if_neg (by omega), if_neg (by omega), if_pos (by omega), show 2 * ((n - 1) / 2 + 1) - 1 = n - 1 by omega]
      · simp only [if_neg h]
        exact fills_pure'.mono (fun k _ hk => h hk.1)
  obtain ⟨ch', g1, g2⟩ := f1 (fun k => n / 2 + 1 ≤ k) (tab M O) ⟨by simp, by
    intro k hk hS
    rw [tab_get?, if_pos hk, hV, r2cOut, if_neg (by omega), if_neg (by omega), if_neg (by omega)]⟩
  simp only [] at g1 ⊢
  rw [g1, eq_tab g2.1 (fun k hk => g2.2 k hk (by
    by_cases q : n / 2 + 1 ≤ k
    · exact Or.inl q
    · right
      by_cases q0 : k = 0
      · exact Or.inl q0
      · right
        by_cases q1 : k ≤ (n - 1) / 2
        · exact Or.inl ⟨k - 1, by omega, by omega⟩
        · exact Or.inr ⟨by omega, by omega⟩))]

/-- the half-complex buffer that `c2r` fills from the bins -/
def c2rIn (Z : ℕ → Cx F) (p : ℕ) : F := if p = 0 then (Z 0).re else if p % 2 = 1 then (Z ((p + 1) / 2)).re else (Z (p / 2)).im

theorem c2rExec_ok {L : RLits F} {tw : ℕ → Cx F} {fct : Option F} {n M : ℕ} (hn : 0 < n) {Z : ℕ → Cx F} {Y : ℕ → F}
    {tmp scratch out : List F} (ht : tmp.length = n) (ho : out.length = n)
    (hY : rfftExec L tw false fct (tab n (c2rIn Z)) scratch = .ok (tab n Y)) (hM : n / 2 + 1 ≤ M) :
    c2rExec L tw fct (tab M Z) tmp scratch out = .ok (tab n Y) := by
  unfold c2rExec
  simp only []
  rw [ho, ld_tab (show 0 < M by omega), Out.ok_bind]
  have f1 : Fills n (c2rIn Z) (fun tdata => do
      let tdata ← st tdata 0 (Z 0).re
      let tdata ← forN ((n - 1) / 2) (fun m tdata => do
        let ii := m + 1
        let i := 2 * ii - 1
        let z ← ld (tab M Z) ii
        let tdata ← st tdata i z.re
        st tdata (i + 1) z.im) tdata
      let ii := (n - 1) / 2 + 1
      let i := 2 * ii - 1
      (if i < n then do
        let z ← ld (tab M Z) ii
        st tdata i z.re
      else pure tdata))
      (fun k => k = 0 ∨ (∃ m, m < (n - 1) / 2 ∧ (k = 2 * (m + 1) - 1 ∨ k = 2 * (m + 1))) ∨
        (2 * ((n - 1) / 2 + 1) - 1 < n ∧ k = 2 * ((n - 1) / 2 + 1) - 1)) := by
    apply fills_st_bind hn
    · rfl
    apply fills_bind
    · apply fills_forN
      intro m hm
      simp only [show 2 * (m + 1) - 1 + 1 = 2 * (m + 1) by omega]
      simp only [ld_tab (show m + 1 < M by omega), Out.ok_bind]
      apply fills_st_bind (by omega)
      · rw [c2rIn, if_neg (by omega), if_pos (by omega), show (2 * (m + 1) - 1 + 1) / 2 = m + 1 by omega]
      · apply fills_st (by omega)
        rw [c2rIn, if_neg (by omega), if_neg (by omega), show 2 * (m + 1) / 2 = m + 1 by omega]
    · by_cases h : 2 * ((n - 1) / 2 + 1) - 1 < n
      · simp only [if_pos h, ld_tab (show (n - 1) / 2 + 1 < M by omega), Out.ok_bind]
        apply Fills.mono (fills_st (a := 2 * ((n - 1) / 2 + 1) - 1) (by omega) ?_)
        · intro k _ hk; exact hk.2
        · rw [c2rIn, if_neg (by omega), if_pos (by omega), show (2 * ((n - 1) / 2 + 1) - 1 + 1) / 2 = (n - 1) / 2 + 1 by omega]
      · simp only [if_neg h]
        exact fills_pure'.mono (fun k _ hk => h hk.1)
  have g := fills_all f1 (by
    intro k hk
    by_cases q0 : k = 0
    · exact Or.inl q0
    · right
      by_cases q1 : (k + 1) / 2 ≤ (n - 1) / 2
      · exact Or.inl ⟨(k + 1) / 2 - 1, by omega, by omega⟩
      · exact Or.inr ⟨by omega, by omega⟩) ht
  simp only [] at g
  have g' := congrArg (fun o => o >>= fun tdata => (do
    let tdata ← rfftExec L tw false fct tdata scratch
    forN n (fun i out => do
      let v ← ld tdata i
      st out i v) out)) g
  simp only [bind_assoc, Out.ok_bind] at g'
  rw [g', hY, Out.ok_bind, copy_ok le_rfl ho]

end PocketF

/-- **C94**: `FFT` of a real signal: every one of the `n / 2 + 1` bins is within `600 h n log₂ n` rounding errors of the exact
spectrum, and the rest of the output array is left alone. -/
theorem C94_spectrum (A : FloatArithNeg F) (h X : ℝ) (L : RLits F) (tw : ℕ → Cx F) (x tmp scratch : List F) (out : List (Cx F))
    (hx : x ≠ []) (hs : scratch.length = x.length) (htmp : tmp.length = x.length) (hout : x.length / 2 + 1 ≤ out.length)
    (h5 : Smooth5 x.length) (h1 : 1 ≤ h) (hL : RLitsOk A h L) (ht : TableOk A h x.length tw)
    (htu : A.tiny ≤ A.u) (h4 : 4 ≤ A.huge) (hf : ∀ c ∈ x, A.finite c ∧ |A.val c| ≤ X)
    (hu : 2000 * h ^ 2 * (Nat.log 2 x.length + 1) * A.u ≤ 1)
    (hH : 2400000 * h ^ 3 * (Nat.log 2 x.length + 1) * x.length * (X + A.tiny) ≤ A.huge) :
    ∃ z, r2cExec L tw none x tmp scratch out = .ok z ∧ z.length = out.length ∧
      (∀ k, k < x.length / 2 + 1 → FinC A (z.getD k ⟨0, 0⟩) ∧
        ‖cval A (z.getD k ⟨0, 0⟩) - ∑ j ∈ Finset.range x.length,
            (A.val (x.getD j 0) : ℂ) * rootOfUnity x.length (-((j : ℤ) * k))‖
          ≤ 600 * h * x.length * Nat.log 2 x.length * (A.u * X + A.tiny)) ∧
      ∀ k, x.length / 2 + 1 ≤ k → k < out.length → z.getD k ⟨0, 0⟩ = out.getD k ⟨0, 0⟩ := by
  have hn : 0 < x.length := List.length_pos_iff.2 hx
  obtain ⟨B, Z, e, h2, h3⟩ := forward_spectrum A h X L tw x scratch hx hs h5 h1 hL ht htu h4 hf hu hH
  have e' := e
  rw [list_tabC x 0, Pocket.tab_length] at e'
  have hr := r2cExec_ok (M := out.length) (O := fun k => out.getD k ⟨0, 0⟩) hn htmp e' hout
  rw [← list_tabC, ← list_tabC] at hr
  refine ⟨_, hr, by simp, fun k hk => ?_, fun k hk hk' => ?_⟩
  · rw [tab_getD _ _ (by omega)]
    have hD := h3 k
    have hreal : Pocket.Herm x.length (rdftSum A x) := by rw [rdftSum_rdft]; exact Pocket.rdft_herm _ _
    change _ ∧ ‖_ - rdftSum A x k‖ ≤ _
    have re_le : ∀ c, |(Z c).re - (rdftSum A x c).re| ≤ 600 * h * x.length * Nat.log 2 x.length * (A.u * X + A.tiny) :=
      fun c => (Complex.abs_re_le_norm (Z c - rdftSum A x c)).trans (h3 c)
    unfold r2cOut
    by_cases k0 : k = 0
    · subst k0
      rw [if_pos rfl]
      obtain ⟨a, b⟩ := h2 0 hn
      refine ⟨⟨a, A.zero_finite⟩, ?_⟩
      have ee : cval A ⟨B 0, 0⟩ - rdftSum A x 0 = (((Z 0).re - (rdftSum A x 0).re : ℝ) : ℂ) := by
        apply Complex.ext
        · simp [cval, b, Pocket.enc_zero]
        · simp [cval, A.val_zero, hreal.real0]
      rw [ee, Complex.norm_real]
      exact re_le 0
    rw [if_neg k0]
    by_cases k1 : 2 * k < x.length
    · rw [if_pos k1]
      obtain ⟨a, b⟩ := h2 (2 * k - 1) (by omega)
      obtain ⟨c, d⟩ := h2 (2 * k) (by omega)
      rw [Pocket.enc_re (by omega) rfl] at b
      rw [Pocket.enc_im (by omega) rfl] at d
      refine ⟨⟨a, c⟩, ?_⟩
      have ee : cval A ⟨B (2 * k - 1), B (2 * k)⟩ = Z k := Complex.ext b d
      rw [ee]
      exact hD
    · rw [if_neg k1, if_pos (by omega)]
      obtain ⟨a, b⟩ := h2 (x.length - 1) (by omega)
      rw [Pocket.enc_re (c := k) (by omega) (by omega)] at b
      refine ⟨⟨a, A.zero_finite⟩, ?_⟩
      have ee : cval A ⟨B (x.length - 1), 0⟩ - rdftSum A x k = (((Z k).re - (rdftSum A x k).re : ℝ) : ℂ) := by
        apply Complex.ext
        · simp [cval, b]
        · simp [cval, A.val_zero, hreal.realMid (m := k) (by omega)]
      rw [ee, Complex.norm_real]
      exact re_le k
  · rw [tab_getD _ _ hk', r2cOut, if_neg (by omega), if_neg (by omega), if_neg (by omega)]

theorem PocketF.samples_exec (A : FloatArithNeg F) (h X : ℝ) (L : RLits F) (tw : ℕ → Cx F) (Z : List (Cx F)) (tmp scratch out : List F)
    (ho : out ≠ []) (hs : scratch.length = out.length) (htmp : tmp.length = out.length) (hZ : out.length / 2 + 1 ≤ Z.length)
    (h5 : Smooth5 out.length) (h1 : 1 ≤ h) (hL : RLitsOk A h L) (ht : TableOk A h out.length tw)
    (htu : A.tiny ≤ A.u) (h4 : 4 ≤ A.huge)
    (hf : ∀ k, k < out.length / 2 + 1 → FinC A (Z.getD k ⟨0, 0⟩) ∧ ‖cval A (Z.getD k ⟨0, 0⟩)‖ ≤ X)
    (hu : 2000 * h ^ 2 * (Nat.log 2 out.length + 1) * A.u ≤ 1)
    (hH : 2400000 * h ^ 3 * (Nat.log 2 out.length + 1) * out.length * (2 * X + A.tiny) ≤ A.huge) :
    ∃ y, rfftExec L tw false none (Pocket.tab out.length (c2rIn fun k => Z.getD k ⟨0, 0⟩)) scratch = .ok y ∧
      y.length = out.length ∧ ∀ j, j < out.length → A.finite (y.getD j 0) ∧
      |A.val (y.getD j 0) - halfComplexInverse out.length (halfComplex fun k => cval A (Z.getD k ⟨0, 0⟩)) j|
        ≤ 600 * h * out.length * Nat.log 2 out.length * (A.u * (2 * X) + A.tiny) := by
  have hn : 0 < out.length := List.length_pos_iff.2 ho
  generalize hnn : out.length = n at *
  obtain ⟨x, hxd⟩ : ∃ x, x = Pocket.tab n (c2rIn (fun k => Z.getD k ⟨0, 0⟩)) := ⟨_, rfl⟩
  have hxl : x.length = n := by rw [hxd]; simp
  have hval : ∀ i, A.val (c2rIn (fun k => Z.getD k ⟨0, 0⟩) i) = halfComplex (fun k => cval A (Z.getD k ⟨0, 0⟩)) i := by
    intro i
    unfold c2rIn halfComplex
    split
    · rfl
    · split <;> rfl
  have hfin : ∀ c ∈ x, A.finite c ∧ |A.val c| ≤ X := by
    intro c hc
    obtain ⟨i, hi, rfl⟩ := List.getElem_of_mem hc
    have hi' : i < n := by omega
    have e : x[i] = c2rIn (fun k => Z.getD k ⟨0, 0⟩) i := by subst hxd; exact Pocket.tab_get _ _ _ hi
    rw [e]
    unfold c2rIn
    split
    · obtain ⟨a, b⟩ := hf 0 (by omega)
      exact ⟨a.1, (Complex.abs_re_le_norm _).trans b⟩
    · split
      · obtain ⟨a, b⟩ := hf ((i + 1) / 2) (by omega)
        exact ⟨a.1, (Complex.abs_re_le_norm _).trans b⟩
      · obtain ⟨a, b⟩ := hf (i / 2) (by omega)
        exact ⟨a.2, (Complex.abs_im_le_norm _).trans b⟩
  obtain ⟨y, e, hl, hy⟩ := C94_backward A h X L tw x scratch (List.ne_nil_of_length_pos (by omega)) (by rw [hxl, hs])
    (by rw [hxl]; exact h5) h1 hL (by rw [hxl]; exact ht) htu h4 hfin (by rw [hxl]; exact hu) (by rw [hxl]; exact hH)
  rw [hxl] at hl hy
  rw [hxd] at e
  refine ⟨y, e, hl, fun j hj => ⟨(hy j hj).1, ?_⟩⟩
  have ee : halfComplexInverse n (fun i => A.val (x.getD i 0)) j
      = halfComplexInverse n (halfComplex fun k => cval A (Z.getD k ⟨0, 0⟩)) j := by
    have hg : ∀ i, i < n → A.val (x.getD i 0) = halfComplex (fun k => cval A (Z.getD k ⟨0, 0⟩)) i := by
      intro i hi
      rw [hxd, tab_getD _ _ hi, hval]
    unfold halfComplexInverse
    beta_reduce
    rw [hg 0 hn, hg (n - 1) (by omega)]
    congr 3
    apply Finset.sum_congr rfl
    intro k hk
    have := Finset.mem_range.1 hk
    rw [hg _ (by omega), hg _ (by omega)]
  rw [← ee]
  exact (hy j hj).2

/-- **C94**: `IFFT` to a real signal (before the scale factor): the samples come from bins `0 .. n / 2` only, the imaginary parts
of bin 0 and of bin `n / 2` are ignored, and every sample is within `600 h n log₂ n` rounding errors. -/
theorem C94_samples (A : FloatArithNeg F) (h X : ℝ) (L : RLits F) (tw : ℕ → Cx F) (Z : List (Cx F)) (tmp scratch out : List F)
    (ho : out ≠ []) (hs : scratch.length = out.length) (htmp : tmp.length = out.length) (hZ : out.length / 2 + 1 ≤ Z.length)
    (h5 : Smooth5 out.length) (h1 : 1 ≤ h) (hL : RLitsOk A h L) (ht : TableOk A h out.length tw)
    (htu : A.tiny ≤ A.u) (h4 : 4 ≤ A.huge)
    (hf : ∀ k, k < out.length / 2 + 1 → FinC A (Z.getD k ⟨0, 0⟩) ∧ ‖cval A (Z.getD k ⟨0, 0⟩)‖ ≤ X)
    (hu : 2000 * h ^ 2 * (Nat.log 2 out.length + 1) * A.u ≤ 1)
    (hH : 2400000 * h ^ 3 * (Nat.log 2 out.length + 1) * out.length * (2 * X + A.tiny) ≤ A.huge) :
    ∃ y, c2rExec L tw none Z tmp scratch out = .ok y ∧ y.length = out.length ∧ ∀ j, j < out.length →
      A.finite (y.getD j 0) ∧
      |A.val (y.getD j 0) - halfComplexInverse out.length (halfComplex fun k => cval A (Z.getD k ⟨0, 0⟩)) j|
        ≤ 600 * h * out.length * Nat.log 2 out.length * (A.u * (2 * X) + A.tiny) := by
  obtain ⟨y, e, hl, hy⟩ := PocketF.samples_exec A h X L tw Z tmp scratch out ho hs htmp hZ h5 h1 hL ht htu h4 hf hu hH
  rw [list_tabC y 0, hl] at e
  have hr := c2rExec_ok (M := Z.length) (List.length_pos_iff.2 ho) htmp rfl e hZ
  rw [← list_tabC, ← hl, ← list_tabC] at hr
  exact ⟨y, hr, hl, hy⟩

/-- **C94**: for these lengths the library always selects the plan the theorems above are about. -/
theorem C94_plan_selected (n : ℕ) (hn : 0 < n) (h5 : Smooth5 n) (junkR : ℕ → ℝ) (junk : ℕ → ℂ) :
    ∃ p, Pocket.pocketfftR n junkR junk = .ok (.pack p) := by
  obtain ⟨pc, c1, c2⟩ := Pocket.rfftp_ok hn junkR
  obtain ⟨l, l1, l2, l3, -⟩ := Pocket.largestPrimeFactor_ok hn
  refine ⟨pc, ?_⟩
  unfold Pocket.pocketfftR
  rw [if_neg (by omega)]
  by_cases h : n < 50
  · simp [if_pos h, c1]
  · have hl : l ≤ 5 := h5 l (l3 (by omega)).1 (l3 (by omega)).2
    have hle : l * l ≤ n := (Nat.mul_le_mul hl hl).trans (by omega)
    simp [if_neg h, l1, c1, hle]

namespace PocketF.Example

/-- correctly rounded literals -/
noncomputable def rlits : RLits (Bin 24 (-149)) where
  toLits := lits
  two := Bin.int 2
  sqrt2 := Bin.pack 24 (-149) (Real.sqrt 2)

theorem rlits_ok : RLitsOk fl 3 rlits where
  lits := lits_ok
  two := by
    refine ⟨?_, ?_⟩
    · apply Bin.finite_int
      norm_num
    · change (((2 : ℤ) : ℝ)) = _
      norm_num
  sqrt2 := by
    have h2 : |Real.sqrt 2| ≤ 2 := by
      rw [abs_of_nonneg (Real.sqrt_nonneg _), Real.sqrt_le_left (by norm_num)]
      norm_num
    obtain ⟨a, b⟩ := pack_near (p := 24) (emin := -149) (by norm_num) (by norm_num) h2
    refine ⟨a, b.trans ?_⟩
    change _ ≤ 2 * 3 * (2 : ℝ) ^ (-(24 : ℤ))
    have : (2 : ℝ) ^ (-((24 : ℕ) : ℤ)) * |Real.sqrt 2| ≤ 2 ^ (-((24 : ℕ) : ℤ)) * 2 := by gcongr
    norm_num at this ⊢
    linarith

/-- twelve real samples of a ramp in single precision: seven bins, twiddle factors from the table -/
example : ∃ (t : SinCos (Bin 53 (-1074))) (tw : ℕ → Cx (Bin 24 (-149))) (z : List (Cx (Bin 24 (-149)))),
    sincos ops 12 = .ok t ∧ (∀ idx, idx ≤ 12 → t.get ops idx = .ok (tw idx)) ∧
    r2cExec rlits tw none ((List.range 12).map fun k : ℕ => Bin.int k) (List.replicate 12 0) (List.replicate 12 0)
      (List.replicate 7 ⟨0, 0⟩) = .ok z ∧ z.length = 7 ∧ ∀ k, k < 7 →
      ‖cval fl (z.getD k ⟨0, 0⟩) - ∑ j ∈ Finset.range 12, (j : ℂ) * rootOfUnity 12 (-((j : ℤ) * k))‖ ≤ 1 / 20 := by
  have hu : fl.u = 2 ^ (-(24 : ℤ)) := rfl
  have htn : fl.tiny = 2 ^ (-150 : ℤ) := by change (2 : ℝ) ^ ((-149 : ℤ) - 1) = _; norm_num
  have hdu : db.u = 2 ^ (-(53 : ℤ)) := rfl
  have h5 : Smooth5 12 := by
    intro p hp hd
    have hle := Nat.le_of_dvd (by norm_num) hd
    interval_cases p <;> revert hp hd <;> norm_num
  have hlog : Nat.log 2 12 = 3 := by
    rw [Nat.log_eq_iff (by norm_num)]
    norm_num
  obtain ⟨t, tw, e1, e2, e3⟩ := C89_twiddle_table db fl ops 2 3 12 (by norm_num) high_ok
    (ops_ok (by norm_num) (by norm_num)) (by rw [hu, htn, hdu]; norm_num)
  obtain ⟨x, hx⟩ : ∃ x : List (Bin 24 (-149)), x = (List.range 12).map fun k : ℕ => Bin.int k := ⟨_, rfl⟩
  have hxl : x.length = 12 := by rw [hx]; simp
  have hval : ∀ k : ℕ, fl.val (Bin.int k) = k := by
    intro k
    change (((k : ℤ) : ℝ)) = _
    simp
  have hxg : ∀ j, j < 12 → fl.val (x.getD j 0) = j := by
    intro j hj
    rw [hx, List.getD_eq_getElem?_getD, List.getElem?_map, List.getElem?_range hj]
    exact hval j
  obtain ⟨z, g1, g2, g3, -⟩ := C94_spectrum fl 3 12 rlits tw x (List.replicate 12 0) (List.replicate 12 0)
    (List.replicate 7 ⟨0, 0⟩) (List.ne_nil_of_length_pos (by omega)) (by simp [hxl]) (by simp [hxl]) (by simp [hxl])
    (by rw [hxl]; exact h5) (by norm_num) rlits_ok (by rw [hxl]; exact e3)
    (by rw [hu, htn]; exact zpow_le_zpow_right₀ (by norm_num) (by norm_num))
    (by change (4 : ℝ) ≤ 2 ^ 126; norm_num)
    (by
      intro c hc
      rw [hx] at hc
      obtain ⟨k, hk, rfl⟩ := List.mem_map.1 hc
      have hk : k < 12 := List.mem_range.1 hk
      have hk' : (k : ℝ) ≤ 12 := by exact_mod_cast hk.le
      refine ⟨?_, ?_⟩
      · apply Bin.finite_int
        push_cast
        rw [abs_of_nonneg (Nat.cast_nonneg _)]
        refine hk'.trans (by norm_num)
      · rw [hval k, abs_of_nonneg (Nat.cast_nonneg _)]
        exact hk')
    (by rw [hxl, hlog, hu]; norm_num)
    (by
      rw [hxl, hlog, htn]
      change _ ≤ (2 : ℝ) ^ 126
      norm_num)
  rw [hxl] at g3
  refine ⟨t, tw, z, e1, e2, hx ▸ g1, by simpa using g2, fun k hk => ?_⟩
  obtain ⟨-, g⟩ := g3 k (by omega)
  have hsum : ∑ j ∈ Finset.range 12, (fl.val (x.getD j 0) : ℂ) * rootOfUnity 12 (-((j : ℤ) * k))
      = ∑ j ∈ Finset.range 12, (j : ℂ) * rootOfUnity 12 (-((j : ℤ) * k)) := by
    apply Finset.sum_congr rfl
    intro j hj
    rw [hxg j (Finset.mem_range.1 hj)]
    simp
  rw [hsum] at g
  refine g.trans ?_
  rw [hlog, hu, htn]
  norm_num

end PocketF.Example

end Verif
