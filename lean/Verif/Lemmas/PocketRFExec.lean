import Verif.Lemmas.PocketRFRadix
import Verif.Lemmas.PocketRExec

/-! # Rounding errors of the real transform -/

set_option linter.unusedSimpArgs false
set_option linter.unusedSectionVars false
set_option linter.unusedVariables false

namespace Verif.PocketF
open Verif.Pocket (ld st ix rwx tab tab_get? w w_scale enc rows Herm fstage bstage hx)

variable {F : Type} [Zero F] [Add F] [Sub F] [Mul F] [Fma F] [Neg F]
variable {A : FloatArithNeg F} {M h b : ℝ}

/-! ### the buffer as a spectrum -/

theorem enc_abs {W : ℕ → ℂ} {ε : ℝ} (hW : ∀ c, ‖W c‖ ≤ ε) (p : ℕ) : |enc W p| ≤ ε := by
  unfold enc
  split
  · exact (Complex.abs_re_le_norm _).trans (hW _)
  · split
    · exact (Complex.abs_re_le_norm _).trans (hW _)
    · exact (Complex.abs_im_le_norm _).trans (hW _)

theorem enc_sub (Z Y : ℕ → ℂ) (p : ℕ) : enc (fun c => Z c - Y c) p = enc Z p - enc Y p := by
  unfold enc
  split
  · simp
  · split <;> simp

theorem herm_sub {L : ℕ} {Z Y : ℕ → ℂ} (hZ : Herm L Z) (hY : Herm L Y) : Herm L (fun c => Z c - Y c) :=
  ⟨fun c => by simp only [hZ.1, hY.1], fun c hc => by simp only [hZ.2 c hc, hY.2 c hc, map_sub]⟩

theorem norm_le_two {z : ℂ} {ε : ℝ} (h1 : |z.re| ≤ ε) (h2 : |z.im| ≤ ε) : ‖z‖ ≤ 2 * ε := by
  have := Complex.norm_le_abs_re_add_abs_im z
  linarith

theorem herm_norm {L : ℕ} {W : ℕ → ℂ} {ε : ℝ} (hL : 0 < L) (hW : Herm L W) (he : ∀ p, p < L → |enc W p| ≤ ε) (c : ℕ) :
    ‖W c‖ ≤ 2 * ε := by
  have e0 : 0 ≤ ε := (abs_nonneg _).trans (he 0 hL)
  have low : ∀ c, 2 * c ≤ L → ‖W c‖ ≤ 2 * ε := by
    intro c hc
    by_cases c0 : c = 0
    · subst c0
      have := he 0 hL
      rw [Pocket.enc_zero] at this
      exact norm_le_two this (by rw [hW.real0, abs_zero]; exact e0)
    · have h1 := he (2 * c - 1) (by omega)
      rw [Pocket.enc_re (by omega) rfl] at h1
      by_cases hm : 2 * c = L
      · exact norm_le_two h1 (by rw [hW.realMid hm.symm, abs_zero]; exact e0)
      · have h2 := he (2 * c) (by omega)
        rw [Pocket.enc_im (by omega) rfl] at h2
        exact norm_le_two h1 h2
  have e : W c = W (c % L) := by
    conv_lhs => rw [← Nat.mod_add_div c L]
    exact hW.period _ _
  rw [e]
  have hlt := Nat.mod_lt c hL
  generalize c % L = d at hlt
  by_cases hd : 2 * d ≤ L
  · exact low d hd
  · have h1 := hW.2 (L - d) (by omega)
    rw [show L - (L - d) = d by omega] at h1
    rw [h1, Complex.norm_conj]
    exact low _ (by omega)

/-- every real buffer is the half-complex form of rows of spectra -/
theorem decode {L N l : ℕ} (hL : 0 < L) (hN : N = L * l) (v : ℕ → ℝ) :
    ∃ Z : ℕ → ℕ → ℂ, (∀ r, Herm L (Z r)) ∧ ∀ n, v n = rows L Z n := by
  refine ⟨fun r => hx L (fun c => ⟨v (L * r + (2 * c - 1)), v (L * r + 2 * c)⟩), fun r => Pocket.hx_herm hL _, fun n => ?_⟩
  unfold rows
  have hp := Nat.mod_lt n hL
  have hn := Nat.div_add_mod n L
  generalize n % L = p at hp hn ⊢
  generalize n / L = r at hn ⊢
  subst hn
  beta_reduce
  by_cases p0 : p = 0
  · subst p0
    rw [Pocket.enc_zero, Pocket.hx_zero]
    simp
  rcases Nat.even_or_odd' p with ⟨c, rfl | rfl⟩
  · rw [Pocket.enc_im (c := c) (by omega) rfl, Pocket.hx_low (by omega) (by omega)]
  · rw [Pocket.enc_re (c := c + 1) (by omega) (by omega)]
    by_cases hm : 2 * (c + 1) = L
    · rw [Pocket.hx_mid (by omega) hm, Complex.ofReal_re]
      rfl
    · rw [Pocket.hx_low (by omega) (by omega)]
      rfl

theorem Herm.mirror' {L : ℕ} {X : ℕ → ℂ} (hL : 0 < L) (h : Herm L X) {c b : ℕ} (hc : c ≤ L * b) :
    X (L * b - c) = (starRingEnd ℂ) (X c) := by
  have hm := Nat.mod_lt c hL
  have hd := Nat.div_add_mod c L
  generalize c % L = r at hm hd
  generalize c / L = q at hd
  subst hd
  have hq : q ≤ b := by
    by_contra hlt
    have : L * (b + 1) ≤ L * q := Nat.mul_le_mul_left _ (by omega)
    rw [Nat.mul_succ] at this
    omega
  obtain ⟨d, rfl⟩ : ∃ d, b = q + d := ⟨b - q, by omega⟩
  have e1 : X (L * q + r) = X r := by rw [Nat.add_comm]; exact h.period _ _
  rw [e1]
  have e2 : L * (q + d) - (L * q + r) = L * d - r := by rw [Nat.mul_add]; omega
  rw [e2]
  rcases Nat.eq_zero_or_pos d with d0 | d0
  · subst d0
    have : r = 0 := by rw [Nat.mul_add] at hc; omega
    subst this
    apply Complex.ext
    · simp
    · simp [h.real0]
  · exact h.mirror d0 hm.le

theorem fstage_herm {ip ido l1 : ℕ} {X : ℕ → ℕ → ℂ} (hido : 0 < ido) (hX : ∀ r, Herm ido (X r)) (k : ℕ) :
    Herm (ido * ip) (fstage ip ido l1 X k) := by
  constructor
  · intro c
    unfold fstage
    apply Finset.sum_congr rfl
    intro j _
    rw [(hX _).period, Nat.add_mul, Pocket.w_add, Pocket.w_mul_self, mul_one]
  · intro c hc
    unfold fstage
    rw [map_sum]
    apply Finset.sum_congr rfl
    intro j _
    rw [Herm.mirror' hido (hX _) hc, map_mul, Nat.sub_mul, Pocket.w_sub true (Nat.mul_le_mul_right _ hc), Pocket.w_mul_self,
      one_mul, Pocket.conj_w]

theorem bstage_herm {ip ido l1 : ℕ} {Y : ℕ → ℕ → ℂ} (hip : 0 < ip) (hido : 0 < ido) (hl : 0 < l1) (hY : ∀ r, Herm (ido * ip) (Y r)) (r : ℕ) :
    Herm ido (bstage ip ido l1 Y r) := by
  obtain ⟨k, j, hk, rfl⟩ : ∃ k j, k < l1 ∧ r = k + l1 * j :=
    ⟨r % l1, r / l1, Nat.mod_lt _ hl, (Nat.mod_add_div _ _).symm⟩
  have e : bstage ip ido l1 Y (k + l1 * j) = Pocket.bspec ido ip (ido * ip) (Y k) j := by
    funext c
    rw [Pocket.bstage_at hk]
    unfold Pocket.bspec Pocket.sft
    rw [Finset.mul_sum]
    apply Finset.sum_congr rfl
    intro b _
    have : w false (ido * ip) (j * (c + ido * b)) = w false (ido * ip) (c * j) * w false ip (j * b) := by
      rw [show j * (c + ido * b) = c * j + j * b * ido by ring, Pocket.w_add, Nat.mul_comm ido ip, w_scale false hido]
    rw [this]
    ring
  rw [e]
  exact Pocket.bspec_herm rfl (hY k) j

theorem fstage_lip {ip ido l1 : ℕ} {X Y : ℕ → ℕ → ℂ} {D : ℝ} (hD : ∀ r c, r < l1 * ip → ‖X r c - Y r c‖ ≤ D) {k : ℕ} (hk : k < l1) (c : ℕ) :
    ‖fstage ip ido l1 X k c - fstage ip ido l1 Y k c‖ ≤ ip * D := by
  unfold fstage
  rw [← Finset.sum_sub_distrib]
  calc _ ≤ ∑ j ∈ Finset.range ip, ‖w true (ido * ip) (c * j) * X (k + l1 * j) c - w true (ido * ip) (c * j) * Y (k + l1 * j) c‖ :=
        norm_sum_le _ _
    _ ≤ ∑ j ∈ Finset.range ip, D := by
        apply Finset.sum_le_sum
        intro j hj
        rw [← mul_sub, norm_mul, norm_w, one_mul]
        apply hD
        have := Finset.mem_range.mp hj
        calc k + l1 * j < l1 + l1 * j := by omega
          _ = l1 * (j + 1) := by ring
          _ ≤ l1 * ip := Nat.mul_le_mul_left _ this
    _ = ip * D := by simp

theorem bstage_lip {ip ido l1 : ℕ} {X Y : ℕ → ℕ → ℂ} {D : ℝ} (hl : 0 < l1) (hD : ∀ r c, r < l1 → ‖X r c - Y r c‖ ≤ D) (r c : ℕ) :
    ‖bstage ip ido l1 X r c - bstage ip ido l1 Y r c‖ ≤ ip * D := by
  obtain ⟨k, j, hk, rfl⟩ : ∃ k j, k < l1 ∧ r = k + l1 * j :=
    ⟨r % l1, r / l1, Nat.mod_lt _ hl, (Nat.mod_add_div _ _).symm⟩
  rw [Pocket.bstage_at hk, Pocket.bstage_at hk]
  unfold Pocket.sft
  rw [← mul_sub, norm_mul, norm_w, one_mul, ← Finset.sum_sub_distrib]
  calc _ ≤ ∑ b ∈ Finset.range ip, ‖_‖ := norm_sum_le _ _
    _ ≤ ∑ b ∈ Finset.range ip, D := by
        apply Finset.sum_le_sum
        intro b hb
        rw [← sub_mul, norm_mul, norm_w, mul_one]
        exact hD _ _ hk
    _ = ip * D := by simp

/-! ### one pass -/

theorem exists_tw (ip ido : ℕ) : ∃ wa, Pocket.TwOk wa ip ido := by
  refine ⟨tab ((ip - 1) * (ido - 1)) (fun n => if n % (ido - 1) % 2 = 0 then
    (w false (ido * ip) ((n / (ido - 1) + 1) * (n % (ido - 1) / 2 + 1))).re else
    (w false (ido * ip) ((n / (ido - 1) + 1) * (n % (ido - 1) / 2 + 1))).im), ?_⟩
  intro x c hx hc0 hc
  have hb : ∀ i, i < ido - 1 → rwx ido x i < (ip - 1) * (ido - 1) ∧ rwx ido x i / (ido - 1) = x ∧ rwx ido x i % (ido - 1) = i := by
    intro i hi
    unfold rwx
    refine ⟨?_, ?_, ?_⟩
    · calc i + x * (ido - 1) < (ido - 1) + x * (ido - 1) := by omega
        _ = (x + 1) * (ido - 1) := by ring
        _ ≤ _ := Nat.mul_le_mul_right _ (by omega)
    · rw [Nat.add_mul_div_right _ _ (by omega), Nat.div_eq_of_lt hi, Nat.zero_add]
    · rw [Nat.add_mul_mod_self_right, Nat.mod_eq_of_lt hi]
  obtain ⟨a1, a2, a3⟩ := hb (2 * c - 2) (by omega)
  obtain ⟨b1, b2, b3⟩ := hb (2 * c - 1) (by omega)
  rw [Pocket.ld_tab a1, Pocket.ld_tab b1, a2, a3, b2, b3, if_pos (by omega), if_neg (by omega),
    show (2 * c - 2) / 2 + 1 = c by omega, show (2 * c - 1) / 2 + 1 = c by omega]
  exact ⟨rfl, rfl⟩

theorem rtwiddle_near {tw : ℕ → Cx F} {N l1 ip ido : ℕ} (hN : 0 < N) (ht : TwOk A h N tw) (hd : N = l1 * ip * ido) :
    (rtwiddle tw l1 ip ido).fct = ip ∧ TwNear A h (rtwiddle tw l1 ip ido).tw ip ido := by
  refine ⟨rfl, ?_⟩
  intro x c hx hc0 hc
  have hb : ∀ i, i < ido - 1 → rwx ido x i < (ip - 1) * (ido - 1) ∧ rwx ido x i / (ido - 1) = x ∧ rwx ido x i % (ido - 1) = i := by
    intro i hi
    unfold rwx
    refine ⟨?_, ?_, ?_⟩
    · calc i + x * (ido - 1) < (ido - 1) + x * (ido - 1) := by omega
        _ = (x + 1) * (ido - 1) := by ring
        _ ≤ _ := Nat.mul_le_mul_right _ (by omega)
    · rw [Nat.add_mul_div_right _ _ (by omega), Nat.div_eq_of_lt hi, Nat.zero_add]
    · rw [Nat.add_mul_mod_self_right, Nat.mod_eq_of_lt hi]
  obtain ⟨a1, a2, a3⟩ := hb (2 * c - 2) (by omega)
  obtain ⟨b1, b2, b3⟩ := hb (2 * c - 1) (by omega)
  have hl1 : 0 < l1 := by
    rcases Nat.eq_zero_or_pos l1 with e | e
    · subst e; simp at hd; omega
    · exact e
  have hle : (x + 1) * l1 * c ≤ N := by
    rw [hd, Nat.mul_comm l1 ip]
    exact Nat.mul_le_mul (Nat.mul_le_mul_right _ hx.le) (by omega)
  have e : w false N ((x + 1) * l1 * c) = w false (ido * ip) ((x + 1) * c) := by
    rw [← w_scale false hl1 (n := ido * ip) (m := (x + 1) * c), hd]
    congr 1 <;> ring
  have hc' := ht _ hle
  rw [e] at hc'
  refine ⟨(tw ((x + 1) * l1 * c)).re, (tw ((x + 1) * l1 * c)).im, ?_, ?_, hc'.re, hc'.im⟩
  · show ld (tab _ _) _ = _
    rw [Pocket.ld_tab a1]
    simp only [a2, a3]
    rw [if_pos (by omega), show (2 * c - 2) / 2 + 1 = c by omega]
  · show ld (tab _ _) _ = _
    rw [Pocket.ld_tab b1]
    simp only [b2, b3]
    rw [if_neg (by omega), show (2 * c - 1) / 2 + 1 = c by omega]

/-- from one simulated pass to a bound on its result -/
theorem pass_of_sim {N : ℕ} {R : ℕ → ℝ} {f : List F → Out (List F)} {g : List ℝ → Out (List ℝ)} {ch : List F} (hc : ch.length = N)
    (hsim : ∀ (t : ℕ → ℝ) ch ch', Dst A M h t ch ch' → Sim (Dst A M h t) (f ch) (g ch'))
    (hg : ∀ ch', ch'.length = N → g ch' = .ok (tab N R)) :
    ∃ B' : ℕ → F, f ch = .ok (tab N B') ∧
      ∀ n, n < N → A.finite (B' n) ∧ |A.val (B' n) - R n| ≤ 300 * h * (A.u * M + A.tiny) := by
  obtain ⟨a, e, h1, h2⟩ := hsim (fun n => R n + 1) ch (tab N (fun n => R n + 1)) ⟨by simp [hc], by
    intro n a r _ hr
    rw [tab_get?] at hr
    split at hr
    · cases hr; exact Or.inr rfl
    · cases hr⟩ _ (hg _ (by simp))
  rw [Pocket.tab_length] at h1
  have hb : a = tab N (fun n => a.getD n 0) := by
    apply Pocket.eq_tab h1
    intro n hn
    rw [List.getD_eq_getElem?_getD, List.getElem?_eq_getElem (by omega)]
    rfl
  refine ⟨fun n => a.getD n 0, by rw [e, ← hb], fun n hn => ?_⟩
  have hn' : n < a.length := by omega
  have e1 : a[n]? = some (a.getD n 0) := by
    rw [List.getD_eq_getElem?_getD, List.getElem?_eq_getElem hn']
    rfl
  rcases h2 n _ _ e1 (by rw [tab_get?, if_pos hn]) with q | q
  · exact ⟨q.fin, q.err⟩
  · simp at q

theorem src_of {N : ℕ} {B : ℕ → F} {v : ℕ → ℝ} (hB : ∀ n, n < N → A.finite (B n) ∧ A.val (B n) = v n ∧ |v n| ≤ M) :
    Src A M h (tab N B) (tab N v) := by
  refine ⟨by simp, ?_⟩
  intro n a r ha hr
  rw [tab_get?] at ha hr
  split at ha
  · rename_i hn
    rw [if_pos hn] at hr
    cases ha
    cases hr
    obtain ⟨h1, h2, h3⟩ := hB n hn
    exact ⟨h1, by rw [h2]; simp, by linarith, le_rfl, zero_le_one⟩
  · cases ha

/-- what is known of one factor -/
structure GoodF (A : FloatArithNeg F) (h : ℝ) (N l1 : ℕ) (f : RFactor F) : Prop where
  rad : f.fct = 2 ∨ f.fct = 3 ∨ f.fct = 4 ∨ f.fct = 5
  tw : ∃ ido, N = l1 * f.fct * ido ∧ 0 < ido ∧ (f.fct % 2 = 1 → ido % 2 = 1) ∧ TwNear A h f.tw f.fct ido

theorem radf_near (E : Env A M h 2000) {L : RLits F} (H : CL A h L) {ido l1 : ℕ} {f : RFactor F}
    (hr : f.fct = 2 ∨ f.fct = 3 ∨ f.fct = 4 ∨ f.fct = 5) (hido : 0 < ido) (hodd : f.fct % 2 = 1 → ido % 2 = 1)
    (hw : TwNear A h f.tw f.fct ido) {Z : ℕ → ℕ → ℂ} (hZ : ∀ r, Herm ido (Z r)) {B : ℕ → F}
    (hB : ∀ n, n < ido * f.fct * l1 → A.finite (B n) ∧ A.val (B n) = rows ido Z n ∧ |rows ido Z n| ≤ M) {ch : List F}
    (hc : ch.length = ido * f.fct * l1) :
    ∃ B' : ℕ → F, radf L ido l1 f (tab (ido * f.fct * l1) B) ch = .ok (tab (ido * f.fct * l1) B', tab (ido * f.fct * l1) B) ∧
      ∀ n, n < ido * f.fct * l1 → A.finite (B' n) ∧
        |A.val (B' n) - rows (ido * f.fct) (fstage f.fct ido l1 Z) n| ≤ 300 * h * (A.u * M + A.tiny) := by
  obtain ⟨ip, wa⟩ := f
  simp only [] at hr hodd hw hB hc ⊢
  obtain ⟨wa', hw'⟩ := exists_tw ip ido
  have hs := src_of (A := A) (h := h) hB
  unfold radf
  simp only []
  rcases hr with rfl | rfl | rfl | rfl
  · obtain ⟨B', e, hB'⟩ := pass_of_sim hc (fun t ch ch' hd => radf2_sim (l1 := l1) E H hw hw' hs hd)
      (fun ch' hc' => Pocket.radf2_ok hido hZ hw' hc')
    exact ⟨B', by simp [e], hB'⟩
  · obtain ⟨B', e, hB'⟩ := pass_of_sim hc (fun t ch ch' hd => radf3_sim (l1 := l1) E H hw hw' hs hd)
      (fun ch' hc' => Pocket.radf3_ok hido (hodd (by norm_num)) hZ hw' hc')
    exact ⟨B', by simp [e], hB'⟩
  · obtain ⟨B', e, hB'⟩ := pass_of_sim hc (fun t ch ch' hd => radf4_sim (l1 := l1) E H hw hw' hs hd)
      (fun ch' hc' => Pocket.radf4_ok hido hZ hw' hc')
    exact ⟨B', by simp [e], hB'⟩
  · obtain ⟨B', e, hB'⟩ := pass_of_sim hc (fun t ch ch' hd => radf5_sim (l1 := l1) E H hw hw' hs hd)
      (fun ch' hc' => Pocket.radf5_ok hido (hodd (by norm_num)) hZ hw' hc')
    exact ⟨B', by simp [e], hB'⟩

theorem radb_near (E : Env A M h 2000) {L : RLits F} (H : CL A h L) {ido l1 : ℕ} {f : RFactor F}
    (hr : f.fct = 2 ∨ f.fct = 3 ∨ f.fct = 4 ∨ f.fct = 5) (hido : 0 < ido) (hodd : f.fct % 2 = 1 → ido % 2 = 1)
    (hw : TwNear A h f.tw f.fct ido) {Z : ℕ → ℕ → ℂ} (hZ : ∀ r, Herm (ido * f.fct) (Z r)) {B : ℕ → F}
    (hB : ∀ n, n < ido * f.fct * l1 → A.finite (B n) ∧ A.val (B n) = rows (ido * f.fct) Z n ∧ |rows (ido * f.fct) Z n| ≤ M)
    {ch : List F} (hc : ch.length = ido * f.fct * l1) :
    ∃ B' : ℕ → F, radb L ido l1 f (tab (ido * f.fct * l1) B) ch = .ok (tab (ido * f.fct * l1) B', tab (ido * f.fct * l1) B) ∧
      ∀ n, n < ido * f.fct * l1 → A.finite (B' n) ∧
        |A.val (B' n) - rows ido (bstage f.fct ido l1 Z) n| ≤ 300 * h * (A.u * M + A.tiny) := by
  obtain ⟨ip, wa⟩ := f
  simp only [] at hr hodd hw hB hc hZ ⊢
  obtain ⟨wa', hw'⟩ := exists_tw ip ido
  have hs := src_of (A := A) (h := h) hB
  unfold radb
  simp only []
  rcases hr with rfl | rfl | rfl | rfl
  · obtain ⟨B', e, hB'⟩ := pass_of_sim hc (fun t ch ch' hd => radb2_sim (l1 := l1) E H hw hw' hs hd)
      (fun ch' hc' => Pocket.radb2_ok hido hZ hw' hc')
    exact ⟨B', by simp [e], hB'⟩
  · obtain ⟨B', e, hB'⟩ := pass_of_sim hc (fun t ch ch' hd => radb3_sim (l1 := l1) E H hw hw' hs hd)
      (fun ch' hc' => Pocket.radb3_ok hido (hodd (by norm_num)) hZ hw' hc')
    exact ⟨B', by simp [e], hB'⟩
  · obtain ⟨B', e, hB'⟩ := pass_of_sim hc (fun t ch ch' hd => radb4_sim (l1 := l1) E H hw hw' hs hd)
      (fun ch' hc' => Pocket.radb4_ok hido hZ hw' hc')
    exact ⟨B', by simp [e], hB'⟩
  · obtain ⟨B', e, hB'⟩ := pass_of_sim hc (fun t ch ch' hd => radb5_sim (l1 := l1) E H hw hw' hs hd)
      (fun ch' hc' => Pocket.radb5_ok hido (hodd (by norm_num)) hZ hw' hc')
    exact ⟨B', by simp [e], hB'⟩

/-! ### all passes -/

theorem renv_step {X P S D g : ℝ} {ip N : ℕ} (h1 : 1 ≤ h) (hX : 0 ≤ X) (hS : 0 ≤ S) (hP : S + 1 ≤ P) (hip : 2 ≤ ip) (hg : 1 ≤ g)
    (hgN : g ≤ N) (hu : 2000 * h ^ 2 * P * A.u ≤ 1) (hH : 2400000 * h ^ 3 * P * N * (X + A.tiny) ≤ A.huge)
    (hD : D = A.u * X + A.tiny) :
    Env A (g * X + g * (600 * h * S * D)) h 2000 ∧
      2 * (300 * h * (A.u * (g * X + g * (600 * h * S * D)) + A.tiny)) ≤ ip * (g * (600 * h * D)) := by
  have u0 := A.u_nonneg
  have t0 := A.tiny_nonneg
  have hP1 : 1 ≤ P := by linarith
  have hN1 : (1 : ℝ) ≤ N := hg.trans hgN
  have hip' : (2 : ℝ) ≤ ip := by exact_mod_cast hip
  have hh : h ≤ h ^ 2 := by nlinarith
  have hD0 : 0 ≤ D := by rw [hD]; positivity
  have q1 : 600 * h * S * A.u ≤ 1 := by
    have : 600 * h * S * A.u ≤ 2000 * h ^ 2 * P * A.u := by gcongr <;> linarith
    linarith
  have q2 : 2000 * h ^ 2 * A.u ≤ 1 := by
    have : 2000 * h ^ 2 * 1 * A.u ≤ 2000 * h ^ 2 * P * A.u := by gcongr
    linarith
  have q3 : 600 * h * S * D ≤ X + 600 * h * P * A.tiny := by
    have e : 600 * h * S * D = (600 * h * S * A.u) * X + 600 * h * S * A.tiny := by rw [hD]; ring
    rw [e]
    have : (600 * h * S * A.u) * X ≤ 1 * X := by gcongr
    have : 600 * h * S * A.tiny ≤ 600 * h * P * A.tiny := by gcongr; linarith
    linarith
  refine ⟨⟨by positivity, h1, q2, ?_⟩, ?_⟩
  · have hgp : 0 ≤ X + 600 * h * P * A.tiny := by positivity
    have r1 : g * X + g * (600 * h * S * D) + A.tiny ≤ 2 * (N * (X + 600 * h * P * A.tiny)) := by
      have a1 : g * (600 * h * S * D) ≤ g * (X + 600 * h * P * A.tiny) := by gcongr
      have a2 : g * (X + (X + 600 * h * P * A.tiny)) ≤ N * (X + (X + 600 * h * P * A.tiny)) := by gcongr
      have a3 : A.tiny ≤ N * (600 * h * P * A.tiny) := by
        have : (1 : ℝ) * (600 * 1 * 1 * A.tiny) ≤ N * (600 * h * P * A.tiny) := by gcongr
        linarith
      linarith
    have r2 : X + 600 * h * P * A.tiny ≤ 600 * h * P * (X + A.tiny) := by
      have : (1 : ℝ) * 1 * 1 * X ≤ 600 * h * P * X := by gcongr; norm_num
      linarith
    calc 2000 * h ^ 2 * (g * X + g * (600 * h * S * D) + A.tiny)
        ≤ 2000 * h ^ 2 * (2 * (N * (X + 600 * h * P * A.tiny))) := by gcongr
      _ ≤ 2000 * h ^ 2 * (2 * (N * (600 * h * P * (X + A.tiny)))) := by gcongr
      _ = 2400000 * h ^ 3 * P * N * (X + A.tiny) := by ring
      _ ≤ _ := hH
  · have r1 : A.u * (g * X + g * (600 * h * S * D)) + A.tiny ≤ 2 * (g * D) := by
      have e : A.u * (g * X + g * (600 * h * S * D)) = g * (A.u * X) + g * ((600 * h * S * A.u) * D) := by ring
      rw [e]
      have a1 : g * ((600 * h * S * A.u) * D) ≤ g * (1 * D) := by gcongr
      have a2 : 1 * A.tiny ≤ g * A.tiny := by gcongr
      have a3 : g * D = g * (A.u * X) + g * A.tiny := by rw [hD]; ring
      linarith
    have r2 : 2 * (g * (600 * h * D)) ≤ ip * (g * (600 * h * D)) := by gcongr
    calc 2 * (300 * h * (A.u * (g * X + g * (600 * h * S * D)) + A.tiny)) ≤ 2 * (300 * h * (2 * (g * D))) := by gcongr
      _ = 2 * (g * (600 * h * D)) := by ring
      _ ≤ _ := r2

/-- The factors in reverse order. -/
def GoodFRev (A : FloatArithNeg F) (h : ℝ) (N : ℕ) : ℕ → List (RFactor F) → Prop
  | l, [] => l = 1
  | l, f :: fs => ∃ l1, l = l1 * f.fct ∧ 0 < l1 ∧ GoodF A h N l1 f ∧ GoodFRev A h N l1 fs

def GoodFs (A : FloatArithNeg F) (h : ℝ) (N : ℕ) : ℕ → List (RFactor F) → Prop
  | l1, [] => l1 = N
  | l1, f :: fs => GoodF A h N l1 f ∧ GoodFs A h N (l1 * f.fct) fs

theorem goodFRev_of {N : ℕ} : ∀ (fs : List (RFactor F)) (l1 : ℕ) (rs : List (RFactor F)), 0 < l1 → GoodFs A h N l1 fs →
    GoodFRev A h N l1 rs → GoodFRev A h N N (fs.reverse ++ rs)
  | [], l1, rs, _, h, hr => by rw [GoodFs] at h; subst h; simpa using hr
  | f :: fs, l1, rs, h0, ⟨h1, h2⟩, hr => by
    rw [List.reverse_cons, List.append_assoc]
    have hf : 0 < f.fct := by rcases h1.rad with e | e | e | e <;> omega
    exact goodFRev_of fs (l1 * f.fct) (f :: rs) (Nat.mul_pos h0 hf) h2 ⟨l1, rfl, h0, h1, hr⟩

theorem rows_norm {L N l n : ℕ} {Z : ℕ → ℕ → ℂ} {D : ℝ} (hL : 0 < L) (hN : N = L * l) (hn : n < N)
    (hZ : ∀ r c, r < l → ‖Z r c‖ ≤ D) : |rows L Z n| ≤ D := by
  unfold rows
  apply enc_abs
  intro c
  apply hZ
  rw [Nat.div_lt_iff_lt_mul hL]
  rw [hN, Nat.mul_comm] at hn
  exact hn

theorem rows_diff {L N l : ℕ} {Z Y : ℕ → ℕ → ℂ} {ε : ℝ} (hL : 0 < L) (hN : N = L * l) (hZ : ∀ r, Herm L (Z r)) (hY : ∀ r, Herm L (Y r))
    (he : ∀ n, n < N → |rows L Z n - rows L Y n| ≤ ε) {r : ℕ} (hr : r < l) (c : ℕ) : ‖Z r c - Y r c‖ ≤ 2 * ε := by
  refine herm_norm hL (herm_sub (hZ r) (hY r)) (fun p hp => ?_) c
  have hlt : p + L * r < N := by
    rw [hN]
    calc p + L * r < L + L * r := by omega
      _ = L * (r + 1) := by ring
      _ ≤ L * l := Nat.mul_le_mul_left _ hr
  have := he _ hlt
  rw [Pocket.rows_at hp, Pocket.rows_at hp] at this
  rw [enc_sub]
  exact this

theorem r2hcLoop_near {L : RLits F} {N : ℕ} {X P D : ℝ} {x : ℕ → ℝ} (hN : 0 < N) (H : CL A h L)
    (h1 : 1 ≤ h) (hX : 0 ≤ X) (hx : ∀ n, n < N → |x n| ≤ X) (hu : 2000 * h ^ 2 * P * A.u ≤ 1)
    (hH : 2400000 * h ^ 3 * P * N * (X + A.tiny) ≤ A.huge) (hD : D = A.u * X + A.tiny) :
    ∀ (fs : List (RFactor F)) (l m : ℕ) (S : ℝ) (B : ℕ → F) (Z : ℕ → ℕ → ℂ) (p2 : List F), N = m * l → GoodFRev A h N l fs →
      p2.length = N → 0 ≤ S → S + (fs.length : ℝ) ≤ P → (∀ r, Herm m (Z r)) →
      (∀ n, n < N → A.finite (B n) ∧ A.val (B n) = rows m Z n) →
      (∀ r c, r < l → ‖Z r c - Pocket.fspec l m x r c‖ ≤ m * (600 * h * S * D)) →
      ∃ B' Z', r2hcLoop L N l fs (tab N B) p2 = .ok (tab N B') ∧ (∀ n, n < N → A.finite (B' n) ∧ A.val (B' n) = enc Z' n) ∧
        ∀ c, ‖Z' c - Pocket.rdft N x c‖ ≤ N * (600 * h * (S + fs.length) * D)
  | [], l, m, S, B, Z, p2, hl, hg, hp, hS, hP, hZ, hB, hE => by
    rw [GoodFRev] at hg
    subst hg
    rw [Nat.mul_one] at hl
    subst hl
    refine ⟨B, Z 0, rfl, fun n hn => ⟨(hB n hn).1, ?_⟩, fun c => ?_⟩
    · rw [(hB n hn).2]
      unfold rows
      rw [Nat.div_eq_of_lt hn, Nat.mod_eq_of_lt hn]
    · have := hE 0 c (by omega)
      have e : Pocket.fspec 1 N x 0 = Pocket.rdft N x := by
        funext κ
        unfold Pocket.fspec Pocket.rdft
        apply Finset.sum_congr rfl
        intro m _
        rw [Nat.zero_add, Nat.one_mul]
      rw [e] at this
      simpa using this
  | f :: fs, l, m, S, B, Z, p2, hl, hg, hp, hS, hP, hZ, hB, hE => by
    obtain ⟨l1, rfl, h0, hf, hg⟩ := hg
    obtain ⟨hr, ido, hN', hido, hodd, hw⟩ := hf
    have hip : 2 ≤ f.fct := by omega
    have hll : 0 < l1 * f.fct := Nat.mul_pos h0 (by omega)
    have eL : m = ido := by
      apply Nat.eq_of_mul_eq_mul_right hll
      rw [← hl, hN']; ring
    subst eL
    have hNN : N = m * f.fct * l1 := by rw [hN']; ring
    have hu0 := A.u_nonneg
    have ht0 := A.tiny_nonneg
    have hm1 : (1 : ℝ) ≤ m := by exact_mod_cast hido
    have hmN : (m : ℝ) ≤ N := by
      have : m ≤ N := by rw [hl]; exact Nat.le_mul_of_pos_right _ hll
      exact_mod_cast this
    rw [List.length_cons] at hP
    push_cast at hP
    obtain ⟨E, hstep⟩ := renv_step (A := A) (h := h) (X := X) (P := P) (S := S) (D := D) (g := m) (ip := f.fct) (N := N)
      h1 hX hS (by have : (0 : ℝ) ≤ (fs.length : ℝ) := Nat.cast_nonneg _
                   linarith) hip hm1 hmN hu hH hD
    have hfs : ∀ r c, r < l1 * f.fct → ‖Pocket.fspec (l1 * f.fct) m x r c‖ ≤ m * X := by
      intro r c hr
      unfold Pocket.fspec
      calc _ ≤ ∑ i ∈ Finset.range m, ‖(x (r + l1 * f.fct * i) : ℂ) * w true m (i * c)‖ := norm_sum_le _ _
        _ ≤ ∑ i ∈ Finset.range m, X := by
            apply Finset.sum_le_sum
            intro i hi
            rw [norm_mul, norm_w, mul_one, Complex.norm_real]
            apply hx
            have := Finset.mem_range.mp hi
            rw [hl]
            calc r + l1 * f.fct * i < l1 * f.fct + l1 * f.fct * i := by omega
              _ = (i + 1) * (l1 * f.fct) := by ring
              _ ≤ m * (l1 * f.fct) := Nat.mul_le_mul_right _ this
        _ = m * X := by simp
    have hZn : ∀ r c, r < l1 * f.fct → ‖Z r c‖ ≤ m * X + m * (600 * h * S * D) := by
      intro r c hr
      calc ‖Z r c‖ = ‖Pocket.fspec (l1 * f.fct) m x r c + (Z r c - Pocket.fspec (l1 * f.fct) m x r c)‖ := by ring_nf
        _ ≤ _ := norm_add_le _ _
        _ ≤ _ := add_le_add (hfs r c hr) (hE r c hr)
    obtain ⟨B', e1, e2⟩ := radf_near (l1 := l1) (B := B) (ch := p2) E H hr hido hodd hw hZ
      (by
        rw [← hNN]
        intro n hn
        exact ⟨(hB n hn).1, (hB n hn).2, rows_norm hido hl hn hZn⟩) (by rw [hp, hNN])
    rw [← hNN] at e1 e2
    obtain ⟨Z', z1, z2⟩ := decode (L := m * f.fct) (N := N) (l := l1) (Nat.mul_pos hido (by omega)) hNN (fun n => A.val (B' n))
    have d1 : ∀ r c, r < l1 → ‖Z' r c - fstage f.fct m l1 Z r c‖ ≤ 2 * (300 * h * (A.u * (m * X + m * (600 * h * S * D)) + A.tiny)) := by
      intro r c hr
      refine rows_diff (Nat.mul_pos hido (by omega)) hNN z1 (fstage_herm hido hZ) (fun n hn => ?_) hr c
      rw [← z2]
      exact (e2 n hn).2
    have ih := r2hcLoop_near (x := x) hN H h1 hX hx hu hH hD fs l1 (m * f.fct) (S + 1) B' Z' (tab N B) hNN hg (by simp)
      (by linarith) (by linarith) z1 (fun n hn => ⟨(e2 n hn).1, z2 n⟩) (by
        intro r c hr
        have a1 := d1 r c hr
        have a2 := fstage_lip (ip := f.fct) (ido := m) hE hr c
        rw [Pocket.fspec_step (by omega)] at a2
        have a3 := norm_sub_le_norm_sub_add_norm_sub (Z' r c) (fstage f.fct m l1 Z r c) (Pocket.fspec l1 (m * f.fct) x r c)
        push_cast
        have e : (m : ℝ) * f.fct * (600 * h * (S + 1) * D) = f.fct * (m * (600 * h * D)) + f.fct * (m * (600 * h * S * D)) := by ring
        rw [e]
        linarith)
    obtain ⟨B'', Z'', i1, i2, i3⟩ := ih
    refine ⟨B'', Z'', ?_, i2, fun c => ?_⟩
    · rw [r2hcLoop]
      have g1 : N / (l1 * f.fct) = m := by rw [hl, Nat.mul_div_cancel _ hll]
      have g2 : l1 * f.fct / f.fct = l1 := Nat.mul_div_cancel _ (by omega)
      simp only [g1, g2]
      rw [e1, Out.ok_bind]
      exact i1
    · have := i3 c
      rw [List.length_cons]
      push_cast
      rw [show S + ((fs.length : ℝ) + 1) = S + 1 + fs.length by ring]
      exact this

theorem hc2rLoop_near {L : RLits F} {N : ℕ} {X P D : ℝ} {x : ℕ → ℂ} (hN : 0 < N) (H : CL A h L)
    (h1 : 1 ≤ h) (hX : 0 ≤ X) (hxH : Herm N x) (hx : ∀ c, ‖x c‖ ≤ X) (hu : 2000 * h ^ 2 * P * A.u ≤ 1)
    (hH : 2400000 * h ^ 3 * P * N * (X + A.tiny) ≤ A.huge) (hD : D = A.u * X + A.tiny) :
    ∀ (fs : List (RFactor F)) (l1 m : ℕ) (S : ℝ) (B : ℕ → F) (Z : ℕ → ℕ → ℂ) (p2 : List F), 0 < l1 → N = m * l1 →
      GoodFs A h N l1 fs → p2.length = N → 0 ≤ S → S + (fs.length : ℝ) ≤ P → (∀ r, Herm m (Z r)) →
      (∀ n, n < N → A.finite (B n) ∧ A.val (B n) = rows m Z n) →
      (∀ r c, r < l1 → ‖Z r c - Pocket.bspec m l1 N x r c‖ ≤ l1 * (600 * h * S * D)) →
      ∃ B', hc2rLoop L N l1 fs (tab N B) p2 = .ok (tab N B') ∧ ∀ n, n < N → A.finite (B' n) ∧
        |A.val (B' n) - (Pocket.idft N x n).re| ≤ N * (600 * h * (S + fs.length) * D)
  | [], l1, m, S, B, Z, p2, h0, hl, hg, hp, hS, hP, hZ, hB, hE => by
    rw [GoodFs] at hg
    subst hg
    have : m = 1 := by
      apply Nat.eq_of_mul_eq_mul_right h0
      omega
    subst this
    refine ⟨B, rfl, fun n hn => ⟨(hB n hn).1, ?_⟩⟩
    rw [(hB n hn).2]
    unfold rows
    rw [Nat.div_one, Nat.mod_one, Pocket.enc_zero]
    have := (Complex.abs_re_le_norm _).trans (hE n 0 hn)
    rw [Complex.sub_re] at this
    have e : Pocket.bspec 1 l1 l1 x n 0 = Pocket.idft l1 x n := by
      unfold Pocket.bspec Pocket.idft
      simp only [Nat.zero_add, Nat.one_mul]
    rw [e] at this
    simpa using this
  | f :: fs, l1, m, S, B, Z, p2, h0, hl, ⟨hf, hg⟩, hp, hS, hP, hZ, hB, hE => by
    obtain ⟨hr, ido, hN', hido, hodd, hw⟩ := hf
    have hip : 2 ≤ f.fct := by omega
    have hNN : N = ido * f.fct * l1 := by rw [hN']; ring
    have eL : m = ido * f.fct := by
      apply Nat.eq_of_mul_eq_mul_right h0
      rw [← hl, hNN]
    subst eL
    have hu0 := A.u_nonneg
    have ht0 := A.tiny_nonneg
    have hif : 0 < ido * f.fct := Nat.mul_pos hido (by omega)
    have hm1 : (1 : ℝ) ≤ l1 := by exact_mod_cast h0
    have hmN : (l1 : ℝ) ≤ N := by
      have : l1 ≤ N := by rw [hl]; exact Nat.le_mul_of_pos_left _ hif
      exact_mod_cast this
    rw [List.length_cons] at hP
    push_cast at hP
    obtain ⟨E, hstep⟩ := renv_step (A := A) (h := h) (X := X) (P := P) (S := S) (D := D) (g := l1) (ip := f.fct) (N := N)
      h1 hX hS (by have : (0 : ℝ) ≤ (fs.length : ℝ) := Nat.cast_nonneg _
                   linarith) hip hm1 hmN hu hH hD
    have hfs : ∀ r c, ‖Pocket.bspec (ido * f.fct) l1 N x r c‖ ≤ l1 * X := by
      intro r c
      unfold Pocket.bspec
      calc _ ≤ ∑ i ∈ Finset.range l1, ‖x (c + ido * f.fct * i) * w false N (r * (c + ido * f.fct * i))‖ := norm_sum_le _ _
        _ ≤ ∑ i ∈ Finset.range l1, X := by
            apply Finset.sum_le_sum
            intro i hi
            rw [norm_mul, norm_w, mul_one]
            exact hx _
        _ = l1 * X := by simp
    have hZn : ∀ r c, r < l1 → ‖Z r c‖ ≤ l1 * X + l1 * (600 * h * S * D) := by
      intro r c hr
      calc ‖Z r c‖ = ‖Pocket.bspec (ido * f.fct) l1 N x r c + (Z r c - Pocket.bspec (ido * f.fct) l1 N x r c)‖ := by ring_nf
        _ ≤ _ := norm_add_le _ _
        _ ≤ _ := add_le_add (hfs r c) (hE r c hr)
    obtain ⟨B', e1, e2⟩ := radb_near (l1 := l1) (B := B) (ch := p2) E H hr hido hodd hw hZ
      (by
        rw [← hNN]
        intro n hn
        exact ⟨(hB n hn).1, (hB n hn).2, rows_norm hif hl hn hZn⟩) (by rw [hp, hNN])
    rw [← hNN] at e1 e2
    have hN2 : N = ido * (l1 * f.fct) := by rw [hNN]; ring
    obtain ⟨Z', z1, z2⟩ := decode (L := ido) (N := N) (l := l1 * f.fct) hido hN2 (fun n => A.val (B' n))
    have d1 : ∀ r c, r < l1 * f.fct → ‖Z' r c - bstage f.fct ido l1 Z r c‖
        ≤ 2 * (300 * h * (A.u * (l1 * X + l1 * (600 * h * S * D)) + A.tiny)) := by
      intro r c hr
      refine rows_diff hido hN2 z1 (bstage_herm (by omega) hido h0 hZ) (fun n hn => ?_) hr c
      rw [← z2]
      exact (e2 n hn).2
    have ih := hc2rLoop_near (x := x) hN H h1 hX hxH hx hu hH hD fs (l1 * f.fct) ido (S + 1) B' Z' (tab N B)
      (Nat.mul_pos h0 (by omega)) hN2 hg (by simp) (by linarith) (by linarith) z1 (fun n hn => ⟨(e2 n hn).1, z2 n⟩) (by
        intro r c hr
        have a1 := d1 r c hr
        have a2 := bstage_lip (ip := f.fct) (ido := ido) h0 hE r c
        rw [Pocket.bspec_step hNN (by omega) hido h0] at a2
        have a3 := norm_sub_le_norm_sub_add_norm_sub (Z' r c) (bstage f.fct ido l1 Z r c) (Pocket.bspec ido (l1 * f.fct) N x r c)
        push_cast
        have e : (l1 : ℝ) * f.fct * (600 * h * (S + 1) * D) = f.fct * (l1 * (600 * h * D)) + f.fct * (l1 * (600 * h * S * D)) := by ring
        rw [e]
        linarith)
    obtain ⟨B'', i1, i2⟩ := ih
    refine ⟨B'', ?_, fun n hn => ⟨(i2 n hn).1, ?_⟩⟩
    · rw [hc2rLoop]
      have g1 : N / (f.fct * l1) = ido := by
        rw [hNN, Nat.mul_assoc, Nat.mul_div_cancel _ (Nat.mul_pos (by omega) h0)]
      simp only [g1]
      rw [e1, Out.ok_bind]
      exact i1
    · have := (i2 n hn).2
      rw [List.length_cons]
      push_cast
      rw [show S + ((fs.length : ℝ) + 1) = S + 1 + fs.length by ring]
      exact this

end Verif.PocketF
