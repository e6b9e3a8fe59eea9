import Verif.Lemmas.PocketRFactor
import Verif.Lemmas.PocketRadix

/-! # The plan for real data computes the transform of real data -/

set_option linter.unusedSimpArgs false
set_option linter.unusedSectionVars false
set_option linter.unusedVariables false

namespace Verif.Pocket
open Complex

/-! ### forward -/

/-- The spectrum of every `l1`-th sample. -/
noncomputable def fspec (l1 L : ℕ) (x : ℕ → ℝ) (r κ : ℕ) : ℂ :=
  ∑ m ∈ Finset.range L, (x (r + l1 * m) : ℂ) * w true L (m * κ)

theorem fspec_herm (l1 L : ℕ) (x : ℕ → ℝ) (r : ℕ) : Herm L (fspec l1 L x r) := by
  constructor
  · intro c
    unfold fspec
    apply Finset.sum_congr rfl
    intro m _
    rw [Nat.mul_add, w_add, Nat.mul_comm m L, w_mul_self, mul_one]
  · intro c hc
    unfold fspec
    rw [map_sum]
    apply Finset.sum_congr rfl
    intro m _
    rw [Nat.mul_sub, w_sub true (Nat.mul_le_mul_left _ hc), Nat.mul_comm m L, w_mul_self, one_mul, map_mul, conj_w,
      Complex.conj_ofReal]

theorem fspec_start {N : ℕ} (x : ℕ → ℝ) : tab N (rows 1 (fspec N 1 x)) = tab N x := by
  apply tab_congr
  intro n hn
  unfold rows
  rw [Nat.div_one, Nat.mod_one, enc_zero]
  simp [fspec, w_zero]

theorem fspec_step {ip ido l1 : ℕ} (hip : 0 < ip) (x : ℕ → ℝ) :
    fstage ip ido l1 (fspec (l1 * ip) ido x) = fspec l1 (ido * ip) x := by
  funext k c
  unfold fstage fspec
  rw [Nat.mul_comm ido ip, sum_split, Finset.sum_comm]
  apply Finset.sum_congr rfl
  intro j _
  rw [Finset.mul_sum]
  apply Finset.sum_congr rfl
  intro m _
  have e : w true (ip * ido) (ip * m * c) = w true ido (m * c) := by
    rw [← w_scale true hip (n := ido) (m := m * c)]
    congr 1 <;> ring
  rw [Nat.add_mul, w_add, e, show k + l1 * (j + ip * m) = k + l1 * j + l1 * ip * m by ring, Nat.mul_comm c j]
  ring

theorem rad_other {f : ℕ} (h : f = 2 ∨ f = 4 ∨ (f.Prime ∧ f % 2 = 1)) (h4 : f ≠ 4) (h2 : f ≠ 2) (h3 : f ≠ 3)
    (h5 : f ≠ 5) : f.Prime ∧ 7 ≤ f := by
  have hp : f.Prime := by tauto
  refine ⟨hp, ?_⟩
  by_contra hle
  have := hp.two_le
  have ho : f % 2 = 1 := by tauto
  omega

theorem radf_ok {ido l1 : ℕ} {f : RFactor} {X : ℕ → ℕ → ℂ} {ch : List ℝ} (hl : 0 < l1)
    (hr : f.fct = 2 ∨ f.fct = 4 ∨ (f.fct.Prime ∧ f.fct % 2 = 1)) (hido : 0 < ido) (hodd : f.fct % 2 = 1 → ido % 2 = 1)
    (hw : TwOk f.tw f.fct ido) (hs : 5 < f.fct → f.tws = tab (2 * f.fct) (csT f.fct)) (hX : ∀ r, Herm ido (X r))
    (hc : ch.length = ido * f.fct * l1) :
    ∃ p2, p2.length = ido * f.fct * l1 ∧ radf ido l1 f (tab (ido * f.fct * l1) (rows ido X)) ch
      = .ok (tab (ido * f.fct * l1) (rows (ido * f.fct) (fstage f.fct ido l1 X)), p2) := by
  obtain ⟨ip, tw, tws⟩ := f
  simp only [] at hr hodd hw hs hc ⊢
  unfold radf
  simp only []
  by_cases c4 : ip = 4
  · subst c4
    rw [if_pos rfl, radf4_ok hido hX hw hc]
    exact ⟨_, by simp, rfl⟩
  rw [if_neg c4]
  by_cases c2 : ip = 2
  · subst c2
    rw [if_pos rfl, radf2_ok hido hX hw hc]
    exact ⟨_, by simp, rfl⟩
  rw [if_neg c2]
  by_cases c3 : ip = 3
  · subst c3
    rw [if_pos rfl, radf3_ok hido (hodd (by norm_num)) hX hw hc]
    exact ⟨_, by simp, rfl⟩
  rw [if_neg c3]
  by_cases c5 : ip = 5
  · subst c5
    rw [if_pos rfl, radf5_ok hido (hodd (by norm_num)) hX hw hc]
    exact ⟨_, by simp, rfl⟩
  rw [if_neg c5]
  obtain ⟨hp, h7⟩ := rad_other hr c4 c2 c3 c5
  rw [hs (by omega)]
  obtain ⟨ch', q1, q2⟩ := radfg_ok (l1 := l1) hp h7 hido (hodd (by tauto)) hX hw hc
  exact ⟨ch', q1, q2⟩

/-- The factors in reverse order. -/
def GoodRev (N : ℕ) : ℕ → List RFactor → Prop
  | l, [] => l = 1
  | l, f :: fs => ∃ l1, l = l1 * f.fct ∧ 0 < l1 ∧ GoodRF N l1 f ∧ GoodRev N l1 fs

theorem goodRev_of {N : ℕ} : ∀ (fs : List RFactor) (l1 : ℕ) (rs : List RFactor), 0 < l1 → GoodRs N l1 fs → GoodRev N l1 rs →
    GoodRev N N (fs.reverse ++ rs)
  | [], l1, rs, _, h, hr => by rw [GoodRs] at h; subst h; simpa using hr
  | f :: fs, l1, rs, h0, ⟨h1, h2⟩, hr => by
    rw [List.reverse_cons, List.append_assoc]
    have hf : 0 < f.fct := by
      rcases h1.rad with e | e | e
      · omega
      · omega
      · exact e.1.pos
    exact goodRev_of fs (l1 * f.fct) (f :: rs) (Nat.mul_pos h0 hf) h2 ⟨l1, rfl, h0, h1, hr⟩

theorem r2hcLoop_ok {N : ℕ} (hN : 0 < N) (x : ℕ → ℝ) : ∀ (fs : List RFactor) (l L : ℕ) (p2 : List ℝ), N = L * l →
    GoodRev N l fs → p2.length = N →
    r2hcLoop N l fs (tab N (rows L (fspec l L x))) p2 = .ok (tab N (rows N (fspec 1 N x)))
  | [], l, L, p2, hl, hg, hp => by
    rw [GoodRev] at hg
    subst hg
    rw [Nat.mul_one] at hl
    subst hl
    rfl
  | f :: fs, l, L, p2, hl, hg, hp => by
    obtain ⟨l1, rfl, h0, hf, hg⟩ := hg
    obtain ⟨hr, ⟨ido, hN', hido, hodd, hw⟩, hs⟩ := hf
    have hip : 0 < f.fct := by
      rcases Nat.eq_zero_or_pos f.fct with e | e
      · rw [e] at hN'; simp at hN'; omega
      · exact e
    have hll : 0 < l1 * f.fct := Nat.mul_pos h0 hip
    have eL : L = ido := by
      apply Nat.eq_of_mul_eq_mul_right hll
      rw [← hl, hN']; ring
    subst eL
    have hNN : N = L * f.fct * l1 := by rw [hN']; ring
    rw [r2hcLoop]
    have e1 : N / (l1 * f.fct) = L := by rw [hl, Nat.mul_div_cancel _ hll]
    have e2 : l1 * f.fct / f.fct = l1 := Nat.mul_div_cancel _ hip
    simp only [e1, e2]
    obtain ⟨p2', q1, q2⟩ := radf_ok (X := fspec (l1 * f.fct) L x) (ch := p2) h0 hr hido hodd hw hs
      (fun r => fspec_herm _ _ _ _) (by rw [hp, hNN])
    rw [← hNN, fspec_step hip] at q2
    rw [q2, Out.ok_bind]
    exact r2hcLoop_ok hN x fs l1 (L * f.fct) p2' hNN hg (by rw [q1, ← hNN])

/-! ### backward -/

/-- The spectra of the signals made of every `l1`-th sample of the inverse transform. -/
noncomputable def bspec (L l1 N : ℕ) (X : ℕ → ℂ) (r κ : ℕ) : ℂ :=
  ∑ c ∈ Finset.range l1, X (κ + L * c) * w false N (r * (κ + L * c))

theorem bspec_herm {L l1 N : ℕ} {X : ℕ → ℂ} (hN : N = L * l1) (hX : Herm N X) (r : ℕ) : Herm L (bspec L l1 N X r) := by
  have g1 : ∀ κ, X (κ + N) * w false N (r * (κ + N)) = X κ * w false N (r * κ) := by
    intro κ
    rw [hX.1, Nat.mul_add, w_add, Nat.mul_comm r N, w_mul_self, mul_one]
  have g2 : ∀ κ, κ ≤ N → X (N - κ) * w false N (r * (N - κ)) = (starRingEnd ℂ) (X κ * w false N (r * κ)) := by
    intro κ h
    rw [hX.2 κ h, Nat.mul_sub, w_sub false (Nat.mul_le_mul_left _ h), Nat.mul_comm r N, w_mul_self, one_mul, map_mul,
      conj_w]
  constructor
  · intro κ
    unfold bspec
    have h1 := Finset.sum_range_succ' (fun c => X (κ + L * c) * w false N (r * (κ + L * c))) l1
    have h2 := Finset.sum_range_succ (fun c => X (κ + L * c) * w false N (r * (κ + L * c))) l1
    rw [h2, ← hN, g1, Nat.mul_zero, Nat.add_zero] at h1
    have h3 := add_right_cancel h1
    rw [h3]
    apply Finset.sum_congr rfl
    intro c _
    rw [show κ + L * (c + 1) = κ + L + L * c by ring]
  · intro κ hκ
    unfold bspec
    rw [map_sum, ← Finset.sum_range_reflect]
    apply Finset.sum_congr rfl
    intro c hc
    have hc := Finset.mem_range.mp hc
    have hb : L * c + L ≤ N := by rw [hN, ← Nat.mul_succ]; exact Nat.mul_le_mul_left _ hc
    have e : L - κ + L * (l1 - 1 - c) = N - (κ + L * c) := by
      have : L * (l1 - 1 - c) + (L * c + L) = N := by
        rw [hN, ← Nat.mul_succ, ← Nat.mul_add]; congr 1; omega
      omega
    rw [e, g2 _ (by omega)]

theorem bspec_step {ip ido l1 N : ℕ} {X : ℕ → ℂ} (hN : N = ido * ip * l1) (hip : 0 < ip) (hido : 0 < ido) (hl1 : 0 < l1) :
    bstage ip ido l1 (bspec (ido * ip) l1 N X) = bspec ido (l1 * ip) N X := by
  funext r c
  obtain ⟨k, j, hk, rfl⟩ : ∃ k j, k < l1 ∧ r = k + l1 * j :=
    ⟨r % l1, r / l1, Nat.mod_lt _ hl1, (Nat.mod_add_div _ _).symm⟩
  rw [bstage_at hk]
  unfold bspec sft
  rw [Nat.mul_comm l1 ip, sum_split, Finset.sum_comm, Finset.mul_sum]
  apply Finset.sum_congr rfl
  intro b _
  rw [Finset.sum_mul, Finset.mul_sum]
  apply Finset.sum_congr rfl
  intro a _
  have e1 : c + ido * (b + ip * a) = c + ido * b + ido * ip * a := by ring
  rw [e1, Nat.add_mul k, w_add]
  have e2 : w false N (l1 * j * (c + ido * b + ido * ip * a)) = w false (ido * ip) (c * j) * w false ip (j * b) := by
    have : l1 * j * (c + ido * b + ido * ip * a) = (c * j + j * b * ido + ido * ip * (a * j)) * l1 := by ring
    rw [this, hN, w_scale false hl1, w_add, w_add, w_mul_self, mul_one, Nat.mul_comm ido ip, w_scale false hido]
  rw [e2]
  ring

theorem bspec_start {N : ℕ} (X : ℕ → ℂ) : tab N (rows N (bspec N 1 N X)) = tab N (enc X) := by
  apply tab_congr
  intro n hn
  unfold rows
  rw [Nat.div_eq_of_lt hn, Nat.mod_eq_of_lt hn]
  have : bspec N 1 N X 0 = X := by
    funext κ
    simp [bspec, w_zero]
  rw [this]

theorem radb_ok {ido l1 : ℕ} {f : RFactor} {Y : ℕ → ℕ → ℂ} {ch : List ℝ} (hl : 0 < l1)
    (hr : f.fct = 2 ∨ f.fct = 4 ∨ (f.fct.Prime ∧ f.fct % 2 = 1)) (hido : 0 < ido) (hodd : f.fct % 2 = 1 → ido % 2 = 1)
    (hw : TwOk f.tw f.fct ido) (hs : 5 < f.fct → f.tws = tab (2 * f.fct) (csT f.fct))
    (hY : ∀ r, Herm (ido * f.fct) (Y r)) (hc : ch.length = ido * f.fct * l1) :
    ∃ p2, p2.length = ido * f.fct * l1 ∧ radb ido l1 f (tab (ido * f.fct * l1) (rows (ido * f.fct) Y)) ch
      = .ok (tab (ido * f.fct * l1) (rows ido (bstage f.fct ido l1 Y)), p2) := by
  obtain ⟨ip, tw, tws⟩ := f
  simp only [] at hr hodd hw hs hc hY ⊢
  unfold radb
  simp only []
  by_cases c4 : ip = 4
  · subst c4
    rw [if_pos rfl, radb4_ok hido hY hw hc]
    exact ⟨_, by simp, rfl⟩
  rw [if_neg c4]
  by_cases c2 : ip = 2
  · subst c2
    rw [if_pos rfl, radb2_ok hido hY hw hc]
    exact ⟨_, by simp, rfl⟩
  rw [if_neg c2]
  by_cases c3 : ip = 3
  · subst c3
    rw [if_pos rfl, radb3_ok hido (hodd (by norm_num)) hY hw hc]
    exact ⟨_, by simp, rfl⟩
  rw [if_neg c3]
  by_cases c5 : ip = 5
  · subst c5
    rw [if_pos rfl, radb5_ok hido (hodd (by norm_num)) hY hw hc]
    exact ⟨_, by simp, rfl⟩
  rw [if_neg c5]
  obtain ⟨hp, h7⟩ := rad_other hr c4 c2 c3 c5
  rw [hs (by omega)]
  obtain ⟨ch', q1, q2⟩ := radbg_ok (l1 := l1) hp h7 hido (hodd (by tauto)) hY hw hc
  rw [q2, Out.ok_bind]
  exact ⟨ch', q1, rfl⟩

theorem hc2rLoop_ok {N : ℕ} (hN : 0 < N) {X : ℕ → ℂ} (hX : Herm N X) : ∀ (fs : List RFactor) (l1 L : ℕ) (p2 : List ℝ),
    0 < l1 → N = L * l1 → GoodRs N l1 fs → p2.length = N →
    hc2rLoop N l1 fs (tab N (rows L (bspec L l1 N X))) p2 = .ok (tab N (rows 1 (bspec 1 N N X)))
  | [], l1, L, p2, h0, hl, hg, hp => by
    rw [GoodRs] at hg
    subst hg
    have : L = 1 := by
      apply Nat.eq_of_mul_eq_mul_right hN
      omega
    subst this
    rfl
  | f :: fs, l1, L, p2, h0, hl, ⟨hf, hg⟩, hp => by
    obtain ⟨hr, ⟨ido, hN', hido, hodd, hw⟩, hs⟩ := hf
    have hip : 0 < f.fct := by
      rcases Nat.eq_zero_or_pos f.fct with e | e
      · rw [e] at hN'; simp at hN'; omega
      · exact e
    have hNN : N = ido * f.fct * l1 := by rw [hN']; ring
    have eL : L = ido * f.fct := by
      apply Nat.eq_of_mul_eq_mul_right h0
      rw [← hl, hNN]
    subst eL
    rw [hc2rLoop]
    have e1 : N / (f.fct * l1) = ido := by
      rw [hNN, Nat.mul_assoc, Nat.mul_div_cancel _ (Nat.mul_pos hip h0)]
    simp only [e1]
    obtain ⟨p2', q1, q2⟩ := radb_ok (Y := bspec (ido * f.fct) l1 N X) (ch := p2) h0 hr hido hodd hw hs
      (fun r => bspec_herm hNN hX r) (by rw [hp, hNN])
    rw [← hNN, bspec_step hNN hip hido h0] at q2
    rw [q2, Out.ok_bind]
    exact hc2rLoop_ok hN hX fs (l1 * f.fct) ido p2' (Nat.mul_pos h0 hip) (by rw [hNN]; ring) hg (by rw [q1, ← hNN])

/-! ### the plan -/

/-- the discrete Fourier transform of a real signal -/
noncomputable def rdft (N : ℕ) (x : ℕ → ℝ) (k : ℕ) : ℂ := ∑ m ∈ Finset.range N, (x m : ℂ) * w true N (m * k)

/-- the inverse sums -/
noncomputable def idft (N : ℕ) (X : ℕ → ℂ) (j : ℕ) : ℂ := ∑ k ∈ Finset.range N, X k * w false N (j * k)

theorem map_tab_mul {N : ℕ} (fct : ℝ) (A : ℕ → ℝ) : (tab N A).map (fct * ·) = tab N (fun n => fct * A n) := by
  simp [tab, Function.comp_def]

theorem rexec_fwd {N : ℕ} {p : RPlan} (hN : 0 < N) (hp : GoodRPlan N p) (fct : ℝ) (x : ℕ → ℝ) {scratch : List ℝ}
    (hs : scratch.length = N) :
    p.exec (tab N x) scratch fct true = .ok (tab N (fun n => fct * enc (rdft N x) n)) := by
  obtain ⟨hl, hf⟩ := hp
  unfold RPlan.exec
  rw [hl]
  by_cases h1 : N = 1
  · rw [if_pos h1]
    subst h1
    rw [ld_tab (by omega), Out.ok_bind, st_tab (by omega)]
    congr 1
    apply tab_congr
    intro n hn
    have : n = 0 := by omega
    subst this
    simp [rdft, w_zero, enc, mul_comm]
  · rw [if_neg h1, if_pos rfl]
    have hg := goodRev_of p.fact 1 [] (by omega) (hf.resolve_left h1) rfl
    rw [List.append_nil] at hg
    have h := r2hcLoop_ok hN x p.fact.reverse N 1 scratch (by omega) hg hs
    rw [fspec_start] at h
    have e : tab N (rows N (fspec 1 N x)) = tab N (enc (rdft N x)) := by
      apply tab_congr
      intro n hn
      unfold rows
      rw [Nat.div_eq_of_lt hn, Nat.mod_eq_of_lt hn]
      have : fspec 1 N x 0 = rdft N x := by
        funext κ
        unfold fspec rdft
        apply Finset.sum_congr rfl
        intro m _
        rw [Nat.zero_add, Nat.one_mul]
      rw [this]
    rw [h, Out.ok_bind, e, map_tab_mul]
    by_cases hfct : fct = 1
    · subst hfct
      simp
    · rw [if_pos hfct]
      rfl

theorem rexec_bwd {N : ℕ} {p : RPlan} (hN : 0 < N) (hp : GoodRPlan N p) (fct : ℝ) {X : ℕ → ℂ} (hX : Herm N X)
    {scratch : List ℝ} (hs : scratch.length = N) :
    p.exec (tab N (enc X)) scratch fct false = .ok (tab N (fun n => fct * (idft N X n).re)) := by
  obtain ⟨hl, hf⟩ := hp
  unfold RPlan.exec
  rw [hl]
  by_cases h1 : N = 1
  · rw [if_pos h1]
    subst h1
    rw [ld_tab (by omega), Out.ok_bind, st_tab (by omega)]
    congr 1
    apply tab_congr
    intro n hn
    have : n = 0 := by omega
    subst this
    simp [idft, w_zero, enc, mul_comm]
  · rw [if_neg h1, if_neg (by simp)]
    have h := hc2rLoop_ok hN hX p.fact 1 N scratch (by omega) (by omega) (hf.resolve_left h1) hs
    rw [bspec_start] at h
    have e : tab N (rows 1 (bspec 1 N N X)) = tab N (fun n => (idft N X n).re) := by
      apply tab_congr
      intro n hn
      unfold rows
      rw [Nat.div_one, Nat.mod_one, enc_zero]
      unfold bspec idft
      simp only [Nat.zero_add, Nat.one_mul]
    rw [h, Out.ok_bind, e, map_tab_mul]
    by_cases hfct : fct = 1
    · subst hfct
      simp
    · rw [if_pos hfct]
      rfl

theorem rdft_herm (N : ℕ) (x : ℕ → ℝ) : Herm N (rdft N x) := by
  have h := fspec_herm 1 N x 0
  have : fspec 1 N x 0 = rdft N x := by
    funext κ
    unfold fspec rdft
    apply Finset.sum_congr rfl
    intro m _
    rw [Nat.zero_add, Nat.one_mul]
  rwa [this] at h

end Verif.Pocket
