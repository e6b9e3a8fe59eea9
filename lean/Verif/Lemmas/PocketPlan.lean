import Verif.Lemmas.PocketTwiddle
import Verif.Lemmas.PocketFactor

/-! # The complex plan computes the discrete Fourier transform -/

set_option linter.unusedSimpArgs false
set_option linter.unusedSectionVars false
set_option linter.unusedVariables false

namespace Verif.Pocket
open Complex

theorem sum_split {d p : ℕ} (f : ℕ → ℂ) :
    ∑ m ∈ Finset.range (d * p), f m = ∑ b ∈ Finset.range p, ∑ i ∈ Finset.range d, f (i + d * b) := by
  induction p with
  | zero => simp
  | succ p ih =>
    rw [Nat.mul_succ, Finset.sum_range_add, ih, Finset.sum_range_succ]
    congr 1
    apply Finset.sum_congr rfl
    intro i _
    rw [Nat.add_comm]

/-- The transform of `x` is made of `L` interleaved transforms of length `M` of the rows of `A`. -/
def Rows (fwd : Bool) (N L M : ℕ) (x A : ℕ → ℂ) : Prop :=
  ∀ k κ, k < L → κ < M →
    ∑ n ∈ Finset.range N, x n * w fwd N (n * (k + L * κ)) = ∑ m ∈ Finset.range M, A (m + M * k) * w fwd M (m * κ)

theorem rows_start {fwd : Bool} {N : ℕ} {x : ℕ → ℂ} : Rows fwd N 1 N x x := by
  intro k κ hk hκ
  have : k = 0 := by omega
  subst this
  simp

theorem rows_end {fwd : Bool} {N : ℕ} {x A : ℕ → ℂ} (h : Rows fwd N N 1 x A) {k : ℕ} (hk : k < N) :
    A k = ∑ n ∈ Finset.range N, x n * w fwd N (n * k) := by
  have := h k 0 hk (by omega)
  simp [w_zero] at this
  exact this.symm

theorem rows_step {fwd : Bool} {ido ip l1 : ℕ} {x A W : ℕ → ℂ} (hido : 0 < ido) (hip : 0 < ip) (hl1 : 0 < l1)
    (hW : ∀ i j, 0 < i → i < ido → 0 < j → j < ip →
      W (wx ido (j - 1) i) = w false (ido * ip * l1) (j * l1 * i))
    (h : Rows fwd (ido * ip * l1) l1 (ido * ip) x A) :
    Rows fwd (ido * ip * l1) (ip * l1) ido x (stageV fwd ip ido l1 A W) := by
  intro k' κ hk' hκ
  obtain ⟨k, j, hk, hj, rfl⟩ : ∃ k j, k < l1 ∧ j < ip ∧ k' = k + l1 * j :=
    ⟨k' % l1, k' / l1, Nat.mod_lt _ hl1, Nat.div_lt_of_lt_mul (by rw [Nat.mul_comm]; exact hk'), (Nat.mod_add_div _ _).symm⟩
  have hjk : j + ip * κ < ido * ip := by
    have : ip * κ + ip ≤ ip * ido := by rw [← Nat.mul_succ]; exact Nat.mul_le_mul_left _ hκ
    rw [Nat.mul_comm ido ip]; omega
  have h1 := h k (j + ip * κ) hk hjk
  rw [show k + l1 * j + ip * l1 * κ = k + l1 * (j + ip * κ) by ring, h1, sum_split, Finset.sum_comm]
  apply Finset.sum_congr rfl
  intro i hi
  have hi := Finset.mem_range.mp hi
  have e1 : i + ido * (k + l1 * j) = ix ido l1 i k j := rfl
  rw [e1, stageV_ix hi hk]
  have tw : ∀ b, w fwd (ido * ip) ((i + ido * b) * (j + ip * κ))
      = w fwd ip (j * b) * w fwd (ido * ip) (i * j) * w fwd ido (i * κ) := by
    intro b
    have e : (i + ido * b) * (j + ip * κ) = j * b * ido + i * j + i * κ * ip + ido * ip * (b * κ) := by ring
    rw [e, w_add, w_add, w_add, w_mul_self, mul_one, w_scale fwd hip, Nat.mul_comm ido ip, w_scale fwd hido]
  have e2 : ∀ b, A (i + ido * b + ido * ip * k) * w fwd (ido * ip) ((i + ido * b) * (j + ip * κ))
      = A (ix ido ip i b k) * w fwd ip (j * b) * (w fwd (ido * ip) (i * j) * w fwd ido (i * κ)) := by
    intro b
    rw [tw, show i + ido * b + ido * ip * k = ix ido ip i b k by unfold ix; ring]
    ring
  simp only [e2]
  rw [← Finset.sum_mul]
  have e3 : stage fwd ip ido A W i k j
      = (∑ b ∈ Finset.range ip, A (ix ido ip i b k) * w fwd ip (j * b)) * w fwd (ido * ip) (i * j) := by
    unfold stage
    split
    · rename_i h0
      have : i * j = 0 := by rcases h0 with h0 | h0 <;> simp [h0]
      rw [this, w_zero, mul_one]
    · rename_i h0
      push Not at h0
      rw [hW i j (by omega) hi (by omega) hj, smul_w, show j * l1 * i = i * j * l1 by ring, w_scale fwd hl1]
  rw [e3]
  ring

/-! ### the twiddle tables of the factors -/

/-- The tables of one factor. -/
def GoodFactor (N l1 : ℕ) (f : Factor) : Prop :=
  ∃ W : ℕ → ℂ, f.tw = tab ((f.fct - 1) * (N / (l1 * f.fct) - 1)) W ∧
    (∀ i j, 0 < i → i < N / (l1 * f.fct) → 0 < j → j < f.fct →
      W (wx (N / (l1 * f.fct)) (j - 1) i) = w false N (j * l1 * i)) ∧
    (11 < f.fct → f.tws = tab f.fct (w false f.fct))

theorem ctwiddle_ok {N l1 ip : ℕ} {t : SinCos} (hN : 0 < N) (ht : ∀ idx, idx ≤ N → t.get idx = .ok (w false N idx))
    (hd : l1 * ip ∣ N) :
    ∃ f, ctwiddle t l1 ip (N / (l1 * ip)) = .ok f ∧ f.fct = ip ∧ GoodFactor N l1 f := by
  obtain ⟨ido, rfl⟩ := hd
  have h0 : 0 < l1 * ip := Nat.pos_of_mul_pos_right hN
  have hido : 0 < ido := Nat.pos_of_mul_pos_left hN
  have hip : 0 < ip := Nat.pos_of_mul_pos_left h0
  have hl1 : 0 < l1 := Nat.pos_of_mul_pos_right h0
  rw [Nat.mul_div_cancel_left _ h0]
  have e1 : (List.range ((ip - 1) * (ido - 1))).mapM (fun n =>
      t.get ((n / (ido - 1) + 1) * l1 * (n % (ido - 1) + 1)))
      = .ok (tab ((ip - 1) * (ido - 1)) (fun n => w false (l1 * ip * ido) ((n / (ido - 1) + 1) * l1 * (n % (ido - 1) + 1)))) := by
    apply mapM_tab
    intro n hn
    apply ht
    have hpos : 0 < ido - 1 := by
      rcases Nat.eq_zero_or_pos (ido - 1) with e | e
      · rw [e] at hn; simp at hn
      · exact e
    have a1 : n / (ido - 1) < ip - 1 := Nat.div_lt_of_lt_mul (by rw [Nat.mul_comm]; exact hn)
    have a2 : n % (ido - 1) < ido - 1 := Nat.mod_lt _ hpos
    calc (n / (ido - 1) + 1) * l1 * (n % (ido - 1) + 1) ≤ ip * l1 * ido :=
          Nat.mul_le_mul (Nat.mul_le_mul_right _ (by omega)) (by omega)
      _ = l1 * ip * ido := by ring
  have e2 : ∃ tws, (if ip > 11 then (List.range ip).mapM fun j => t.get (j * l1 * ido) else pure []) = .ok tws ∧
      (11 < ip → tws = tab ip (w false ip)) := by
    split
    · refine ⟨tab ip (w false ip), ?_, fun _ => rfl⟩
      apply mapM_tab
      intro j hj
      rw [ht]
      · rw [show j * l1 * ido = j * (l1 * ido) by ring, show l1 * ip * ido = ip * (l1 * ido) by ring, w_scale]
        exact Nat.mul_pos hl1 hido
      · calc j * l1 * ido ≤ ip * l1 * ido := Nat.mul_le_mul_right _ (Nat.mul_le_mul_right _ hj.le)
          _ = l1 * ip * ido := by ring
    · exact ⟨[], rfl, by omega⟩
  obtain ⟨tws, e2, e3⟩ := e2
  have e6 : ctwiddle t l1 ip ido = .ok ⟨ip, tab ((ip - 1) * (ido - 1))
      (fun n => w false (l1 * ip * ido) ((n / (ido - 1) + 1) * l1 * (n % (ido - 1) + 1))), tws⟩ := by
    unfold ctwiddle
    rw [e1, Out.ok_bind]
    by_cases h : ip > 11
    · rw [if_pos h] at e2 ⊢
      simp only [e2, Out.ok_bind]; rfl
    · rw [if_neg h] at e2 ⊢
      simp only [e2, Out.ok_bind]; rfl
  refine ⟨_, e6, rfl, fun n => w false (l1 * ip * ido) ((n / (ido - 1) + 1) * l1 * (n % (ido - 1) + 1)), ?_, ?_, e3⟩
  · simp only []
    rw [Nat.mul_div_cancel_left _ h0]
  · intro i j hi hi' hj hj'
    simp only [] at hi' hj' ⊢
    rw [Nat.mul_div_cancel_left _ h0] at hi' ⊢
    unfold wx
    have e4 : (i - 1 + (j - 1) * (ido - 1)) / (ido - 1) = j - 1 := by
      rw [Nat.add_mul_div_right _ _ (by omega), Nat.div_eq_of_lt (by omega), Nat.zero_add]
    have e5 : (i - 1 + (j - 1) * (ido - 1)) % (ido - 1) = i - 1 := by
      rw [Nat.add_mul_mod_self_right, Nat.mod_eq_of_lt (by omega)]
    rw [e4, e5, Nat.sub_add_cancel hi, Nat.sub_add_cancel hj]

/-- The tables of a list of factors. -/
def GoodFactors (N : ℕ) : ℕ → List Factor → Prop
  | l1, [] => l1 = N
  | l1, f :: fs => Radix f.fct ∧ l1 * f.fct ∣ N ∧ GoodFactor N l1 f ∧ GoodFactors N (l1 * f.fct) fs

theorem ctwiddles_ok {N : ℕ} {t : SinCos} (hN : 0 < N) (ht : ∀ idx, idx ≤ N → t.get idx = .ok (w false N idx)) :
    ∀ (fs : List ℕ) (l1 : ℕ), (∀ f ∈ fs, Radix f) → l1 * fs.prod = N →
      ∃ gs, ctwiddles t N l1 fs = .ok gs ∧ GoodFactors N l1 gs
  | [], l1, _, h => ⟨[], rfl, by rw [GoodFactors]; simpa using h⟩
  | ip :: fs, l1, hr, h => by
    have hd : l1 * ip ∣ N := ⟨fs.prod, by rw [← h, List.prod_cons, mul_assoc]⟩
    obtain ⟨f, e1, e2, e3⟩ := ctwiddle_ok (l1 := l1) (ip := ip) hN ht hd
    obtain ⟨gs, e4, e5⟩ := ctwiddles_ok hN ht fs (l1 * ip) (fun f hf => hr f (by simp [hf]))
      (by rw [← h, List.prod_cons, mul_assoc])
    refine ⟨f :: gs, ?_, ?_⟩
    · simp only [ctwiddles, e1, e4, Out.ok_bind]; rfl
    · rw [GoodFactors, e2]
      exact ⟨hr ip (by simp), hd, e3, e5⟩

theorem radix_pos {f : ℕ} (h : Radix f) : 1 < f := by
  rcases h with h | h | h
  · omega
  · omega
  · exact h.one_lt

theorem radix_other {f : ℕ} (h : Radix f) (h4 : f ≠ 4) (h8 : f ≠ 8) (h2 : f ≠ 2) (h3 : f ≠ 3) (h5 : f ≠ 5)
    (h7 : f ≠ 7) (h11 : f ≠ 11) : f.Prime ∧ 11 < f := by
  have hp : f.Prime := by rcases h with h | h | h <;> first | contradiction | exact h
  refine ⟨hp, ?_⟩
  by_contra hle
  have : f ≤ 11 := by omega
  interval_cases f <;> contradiction

/-- 1325-1351 -/
theorem passAllLoop_ok (fwd : Bool) {N : ℕ} {x : ℕ → ℂ} (hN : 0 < N) :
    ∀ (fs : List Factor) (l1 : ℕ) (A : ℕ → ℂ) (p2 : List ℂ) (inC : Bool), 0 < l1 → l1 ∣ N → GoodFactors N l1 fs →
      p2.length = N → Rows fwd N l1 (N / l1) x A →
      ∃ b, passAllLoop fwd N l1 fs (tab N A) p2 inC
        = .ok (tab N (fun k => ∑ n ∈ Finset.range N, x n * w fwd N (n * k)), b)
  | [], l1, A, p2, inC, hl, hd, hg, hp, hr => by
    rw [GoodFactors] at hg
    subst hg
    rw [Nat.div_self hl] at hr
    refine ⟨inC, ?_⟩
    simp only [passAllLoop, Out.pure_def]
    congr 2
    exact tab_congr (fun k hk => rows_end hr hk)
  | f :: fs, l1, A, p2, inC, hl, hd, hg, hp, hr => by
    rw [GoodFactors] at hg
    obtain ⟨g1, g2, ⟨W, g3, g4, g5⟩, g6⟩ := hg
    obtain ⟨ido, hN'⟩ := g2
    have hf := radix_pos g1
    have hpos : 0 < l1 * f.fct := Nat.mul_pos hl (by omega)
    have hdiv : N / (l1 * f.fct) = ido := by rw [hN', Nat.mul_div_cancel_left _ hpos]
    have hido : 0 < ido := by
      rcases Nat.eq_zero_or_pos ido with e | e
      · subst e; simp at hN'; omega
      · exact e
    rw [hdiv] at g3 g4
    have hNN : N = ido * f.fct * l1 := by rw [hN']; ring
    have hM : N / l1 = ido * f.fct := by rw [hNN, Nat.mul_div_cancel _ hl]
    rw [hM] at hr
    have hdl : f.fct * l1 ∣ N := ⟨ido, by rw [hNN]; ring⟩
    have hM2 : N / (f.fct * l1) = ido := by rw [Nat.mul_comm f.fct l1, hdiv]
    have hr' : Rows fwd N (f.fct * l1) (N / (f.fct * l1)) x (stageV fwd f.fct ido l1 A W) := by
      rw [hM2]
      have := rows_step (fwd := fwd) (x := x) (A := A) (W := W) hido (show 0 < f.fct by omega) hl
        (by rw [← hNN]; exact g4) (by rw [← hNN]; exact hr)
      rwa [← hNN] at this
    rw [Nat.mul_comm l1 f.fct] at g6
    have ih : ∀ (p2' : List ℂ) (b : Bool), p2'.length = N →
        ∃ b', passAllLoop fwd N (f.fct * l1) fs (tab N (stageV fwd f.fct ido l1 A W)) p2' b
          = .ok (tab N (fun k => ∑ n ∈ Finset.range N, x n * w fwd N (n * k)), b') := by
      intro p2' b hp'
      exact passAllLoop_ok fwd hN fs _ _ p2' b (by positivity) hdl g6 hp' hr'
    obtain ⟨b1, ih1⟩ := ih (tab N A) (!inC) (by simp)
    rw [passAllLoop, hM2]
    by_cases c4 : f.fct = 4
    · rw [if_pos c4]
      rw [c4] at hNN ih1 g3
      have := pass4_ok fwd (A := A) (W := W) (l1 := l1) (ch := p2) hido (by rw [hp, hNN])
      rw [← hNN] at this
      rw [g3, this, Out.ok_bind, c4]
      exact ⟨b1, ih1⟩
    rw [if_neg c4]
    by_cases c8 : f.fct = 8
    · rw [if_pos c8]
      rw [c8] at hNN ih1 g3
      have := pass8_ok fwd (A := A) (W := W) (l1 := l1) (ch := p2) hido (by rw [hp, hNN])
      rw [← hNN] at this
      rw [g3, this, Out.ok_bind, c8]
      exact ⟨b1, ih1⟩
    rw [if_neg c8]
    by_cases c2 : f.fct = 2
    · rw [if_pos c2]
      rw [c2] at hNN ih1 g3
      have := pass2_ok fwd (A := A) (W := W) (l1 := l1) (ch := p2) hido (by rw [hp, hNN])
      rw [← hNN] at this
      rw [g3, this, Out.ok_bind, c2]
      exact ⟨b1, ih1⟩
    rw [if_neg c2]
    by_cases c3 : f.fct = 3
    · rw [if_pos c3]
      rw [c3] at hNN ih1 g3
      have := pass3_ok fwd (A := A) (W := W) (l1 := l1) (ch := p2) hido (by rw [hp, hNN])
      rw [← hNN] at this
      rw [g3, this, Out.ok_bind, c3]
      exact ⟨b1, ih1⟩
    rw [if_neg c3]
    by_cases c5 : f.fct = 5
    · rw [if_pos c5]
      rw [c5] at hNN ih1 g3
      have := pass5_ok fwd (A := A) (W := W) (l1 := l1) (ch := p2) hido (by rw [hp, hNN])
      rw [← hNN] at this
      rw [g3, this, Out.ok_bind, c5]
      exact ⟨b1, ih1⟩
    rw [if_neg c5]
    by_cases c7 : f.fct = 7
    · rw [if_pos c7]
      rw [c7] at hNN ih1 g3
      have := pass7_ok fwd (A := A) (W := W) (l1 := l1) (ch := p2) hido (by rw [hp, hNN])
      rw [← hNN] at this
      rw [g3, this, Out.ok_bind, c7]
      exact ⟨b1, ih1⟩
    rw [if_neg c7]
    by_cases c11 : f.fct = 11
    · rw [if_pos c11]
      rw [c11] at hNN ih1 g3
      have := pass11_ok fwd (A := A) (W := W) (l1 := l1) (ch := p2) hido (by rw [hp, hNN])
      rw [← hNN] at this
      rw [g3, this, Out.ok_bind, c11]
      exact ⟨b1, ih1⟩
    rw [if_neg c11]
    obtain ⟨hpr, h11⟩ := radix_other g1 c4 c8 c2 c3 c5 c7 c11
    have := passg_ok fwd (A := A) (W := W) (l1 := l1) (ch := p2) hpr (by omega) hido (by rw [hp, hNN])
    rw [← hNN] at this
    rw [g3, g5 h11, this, Out.ok_bind]
    exact ih _ _ (by simp)

/-- A plan for transforms of length `N`. -/
def GoodPlan (N : ℕ) (p : CPlan) : Prop := p.length = N ∧ (N = 1 ∨ GoodFactors N 1 p.fact)

theorem cfftp_ok {N : ℕ} (hN : 0 < N) : ∃ p, cfftp N = .ok p ∧ GoodPlan N p := by
  unfold cfftp
  rw [if_neg (by omega)]
  by_cases h1 : N = 1
  · rw [if_pos h1]
    exact ⟨_, rfl, h1.symm, Or.inl h1⟩
  · rw [if_neg h1]
    obtain ⟨fs, e1, e2, e3⟩ := cfactorize_ok hN
    obtain ⟨t, e4, e5⟩ := sincos_ok hN
    obtain ⟨gs, e6, e7⟩ := ctwiddles_ok hN e5 fs 1 e3 (by rw [e2, one_mul])
    simp only [e1, e4, e6, Out.ok_bind]
    exact ⟨_, rfl, rfl, Or.inr e7⟩

theorem exec_ok {N : ℕ} {p : CPlan} (hN : 0 < N) (hp : GoodPlan N p) (fwd : Bool) (fct : ℝ) (x : ℕ → ℂ)
    {scratch : List ℂ} (hs : scratch.length = N) :
    p.exec (tab N x) scratch fct fwd
      = .ok (tab N (fun k => (∑ n ∈ Finset.range N, x n * w fwd N (n * k)) * (fct : ℂ))) := by
  obtain ⟨hl, hf⟩ := hp
  unfold CPlan.exec passAll
  rw [hl]
  by_cases h1 : N = 1
  · rw [if_pos h1]
    subst h1
    rw [ld_tab (by omega), Out.ok_bind, st_tab (by omega)]
    congr 1
    apply tab_congr
    intro n hn
    have : n = 0 := by omega
    subst this
    simp [w_zero]
  · rw [if_neg h1]
    obtain ⟨b, e⟩ := passAllLoop_ok fwd (x := x) hN p.fact 1 x scratch true (by omega) (one_dvd _)
      (hf.resolve_left h1) hs (by rw [Nat.div_one]; exact rows_start)
    rw [e, Out.ok_bind]
    have hmap : (tab N (fun k => ∑ n ∈ Finset.range N, x n * w fwd N (n * k))).map (· * (fct : ℂ))
        = tab N (fun k => (∑ n ∈ Finset.range N, x n * w fwd N (n * k)) * (fct : ℂ)) := by
      simp [tab, Function.comp_def]
    have h1 : fct = 1 → tab N (fun k => ∑ n ∈ Finset.range N, x n * w fwd N (n * k))
        = tab N (fun k => (∑ n ∈ Finset.range N, x n * w fwd N (n * k)) * (fct : ℂ)) := by
      rintro rfl; simp
    cases b <;> simp only [if_true, if_false, Bool.true_eq_false] <;> split
    · rw [hmap]; rfl
    · rename_i h; rw [← h1 (by simpa using h)]; rfl
    · rw [hmap]; rfl
    · rename_i h; rw [← h1 (by simpa using h)]; rfl

end Verif.Pocket
