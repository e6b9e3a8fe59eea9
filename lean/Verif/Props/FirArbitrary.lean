import Verif.Model.FirArbitrary
import Verif.Lemmas.RealSpectrum
import Verif.Props.FirHilbert
import Verif.Props.Spaces

/-! # Property C66: windowed design of arbitrary responses -/

set_option linter.unusedSimpArgs false

namespace Verif
open Complex Finset

/-- the filter before windowing -/
noncomputable def arbitraryTaps (n : ℕ) (response : ℝ → ℂ) (i : ℕ) : ℝ :=
  sig (c2r n (reg (n / 2 + 1) (fun k => response ((k : ℝ) / (n / 2 : ℕ))))) (if i < n / 2 then i + (n / 2 + 1) else i - n / 2)

theorem arbitraryTaps_eq (n : ℕ) (response : ℝ → ℂ) : arbitraryTaps n response = fun i =>
    sig (c2r n (reg (n / 2 + 1) (fun k => response ((k : ℝ) / (n / 2 : ℕ))))) (if i < n / 2 then i + (n / 2 + 1) else i - n / 2) := rfl

theorem arbitraryImpulse_ok (e : Exec) (n : ℕ) (hodd : n % 2 = 1) (response : ℝ → ℂ) :
    arbitraryImpulse e n response = .ok (c2r n (reg (n / 2 + 1) (fun k => response ((k : ℝ) / (n / 2 : ℕ))))) := by
  have hw : (⟨0, n / 2 + 1⟩ : Span).Within (List.replicate (n / 2 + 1) (0 : ℝ)) := by simp [Span.Within]
  obtain ⟨m, e1, h1⟩ := linSpace_writes e hw (Writes.refl _ _ hw) 0 1 true
  unfold arbitraryImpulse linSpaceNew
  rw [e1, Out.ok_bind, h1.whole (by simp)]
  have hd : linDivisor (n / 2 + 1) true = max 1 (n / 2) := by unfold linDivisor; simp
  have hm : ((List.range (n / 2 + 1)).map (fun i : ℕ => (0 : ℝ) + i * ((1 - 0) / linDivisor (n / 2 + 1) true))).map response =
      reg (n / 2 + 1) (fun k => response ((k : ℝ) / (n / 2 : ℕ))) := by
    rw [List.map_map]
    apply reg_congr
    intro k hk
    show response _ = _
    congr 1
    rw [hd]
    by_cases h0 : n / 2 = 0
    · have : k = 0 := by omega
      simp [this]
    · rw [max_eq_right (by omega)]
      ring
  simp only []
  unfold ifftHalf ifftReal
  have hs : (if decide (n % 2 = 0) = true then usub ((n / 2 + 1) * 2) 2 else usub ((n / 2 + 1) * 2) 1) = n := by
    rw [if_neg (by simp; omega), usub, if_pos (by omega)]
    omega
  have hl : (reg (n / 2 + 1) (fun k => response ((k : ℝ) / (n / 2 : ℕ)))).length = n / 2 + 1 := by simp
  have hm' := hm
  simp only [reg] at hm' ⊢
  rw [hm']
  have hl' := hl
  simp only [reg] at hl'
  rw [hl', hs, cassert_true (Or.inl rfl)]
  rfl

theorem sub_ok {s : Span} {o c : ℕ} (h : o + c ≤ s.size) : s.sub o c = .ok ⟨s.pos + o, c⟩ := by
  rw [Span.sub, cassert_true (by omega), Out.ok_bind, cassert_true h]
  rfl

theorem subFrom_ok {s : Span} {o : ℕ} (h : o ≤ s.size) : s.subFrom o = .ok ⟨s.pos + o, s.size - o⟩ := by
  rw [Span.subFrom, cassert_true h]
  rfl

theorem sig_some {R : Type} [Zero R] (l : List R) {i : ℕ} (h : i < l.length) : l[i]? = some (sig l i) := by
  rw [sig, List.getD_eq_getElem?_getD, List.getElem?_eq_getElem h]
  rfl

/-- the two halves of the design: `out` is the window times the shifted impulse response -/
theorem arbitraryHalves (mem imp : List ℝ) (out a : Span) (hodd : out.size % 2 = 1) (hl : imp.length = out.size)
    (hm : out.Within mem) (hs : out.size = a.size) (ha : a.Within mem) (hc : out.Compatible a) (w : ℕ → ℝ) (hr : Reads mem a w)
    (f : List ℝ → Span → Span → Span → Out (List ℝ))
    (hf : ∀ m (o i w : Span), o.size = i.size → o.size = w.size → o.pos + o.size ≤ m.length → i.pos + i.size ≤ m.length →
      w.pos + w.size ≤ m.length → (o.pos + o.size ≤ i.pos) → (o.pos ≤ w.pos ∨ w.pos + w.size ≤ o.pos) →
      ∃ m', f m o i w = .ok m' ∧ m'.length = m.length ∧
        (∀ t x y, t < o.size → m[w.pos + t]? = some x → m[i.pos + t]? = some y → m'[o.pos + t]? = some (x * y)) ∧
        ∀ j, j < o.pos ∨ o.pos + o.size ≤ j → m'[j]? = m[j]?) :
    ∃ m1 m2, f (mem ++ imp) ⟨out.pos + 0, out.size / 2⟩ ⟨mem.length + (imp.length / 2 + 1), imp.length - (imp.length / 2 + 1)⟩
        ⟨a.pos + 0, a.size / 2⟩ = .ok m1 ∧
      f m1 ⟨out.pos + out.size / 2, out.size - out.size / 2⟩ ⟨mem.length + 0, imp.length / 2 + 1⟩
        ⟨a.pos + a.size / 2, a.size - a.size / 2⟩ = .ok m2 ∧
      Writes mem (m2.take mem.length) out
        (fun i => w i * sig imp (if i < out.size / 2 then i + (out.size / 2 + 1) else i - out.size / 2)) := by
  unfold Span.Within at hm ha
  have hap : a.pos = out.pos ∨ out.pos + out.size ≤ a.pos ∨ a.pos + a.size ≤ out.pos := by
    rcases hc with h | h
    · left; rw [h]
    · right; exact h
  have hlen : (mem ++ imp).length = mem.length + out.size := by simp [hl]
  obtain ⟨m1, e1, l1, w1, r1⟩ := hf (mem ++ imp) ⟨out.pos + 0, out.size / 2⟩
    ⟨mem.length + (imp.length / 2 + 1), imp.length - (imp.length / 2 + 1)⟩ ⟨a.pos + 0, a.size / 2⟩
    (by simp only []; omega) (by simp only []; omega) (by simp only []; omega) (by simp only []; omega) (by simp only []; omega)
    (by simp only []; omega) (by simp only []; omega)
  obtain ⟨m2, e2, l2, w2, r2⟩ := hf m1 ⟨out.pos + out.size / 2, out.size - out.size / 2⟩ ⟨mem.length + 0, imp.length / 2 + 1⟩
    ⟨a.pos + a.size / 2, a.size - a.size / 2⟩
    (by simp only []; omega) (by simp only []; omega) (by simp only []; omega) (by simp only []; omega) (by simp only []; omega)
    (by simp only []; omega) (by simp only []; omega)
  simp only [add_zero] at w1 r1 w2 r2
  have himp : ∀ j, j < out.size → (mem ++ imp)[mem.length + j]? = some (sig imp j) := by
    intro j hj
    rw [List.getElem?_append_right (by omega), Nat.add_sub_cancel_left, sig_some _ (by omega)]
  have hwin : ∀ j, j < out.size → (mem ++ imp)[a.pos + j]? = some (w j) := by
    intro j hj
    rw [List.getElem?_append_left (by omega), hr j (by omega)]
  refine ⟨m1, m2, e1, e2, ⟨by simp; omega, fun i hi => ?_, fun j hj => ?_⟩⟩
  · rw [List.getElem?_take_of_lt (by omega)]
    by_cases h : i < out.size / 2
    · rw [if_pos h, r2 _ (by omega)]
      refine w1 i _ _ h (hwin i hi) ?_
      rw [show mem.length + (imp.length / 2 + 1) + i = mem.length + (i + (out.size / 2 + 1)) by omega]
      exact himp _ (by omega)
    · rw [if_neg h]
      have := w2 (i - out.size / 2) (w i) (sig imp (i - out.size / 2)) (by omega) ?_ ?_
      · rwa [show out.pos + out.size / 2 + (i - out.size / 2) = out.pos + i by omega] at this
      · rw [show a.pos + a.size / 2 + (i - out.size / 2) = a.pos + i by omega, r1 _ (by omega)]
        exact hwin i hi
      · rw [r1 _ (by omega)]
        exact himp _ (by omega)
  · by_cases hjl : j < mem.length
    · rw [List.getElem?_take_of_lt hjl, r2 _ (by omega), r1 _ (by omega), List.getElem?_append_left hjl]
    · rw [List.getElem?_eq_none (by simp; omega), List.getElem?_eq_none (by omega)]

theorem c2r_length (n : ℕ) (l : List ℂ) : (c2r n l).length = n := by simp [c2r]

theorem kernelWindowedArbitrary_writes (e : Exec) (mem : List ℝ) (out : Span) (hodd : out.size % 2 = 1) (hm : out.Within mem)
    (window : List ℝ → Span → Out (List ℝ)) {m0 : List ℝ} {w : ℕ → ℝ} (e0 : window mem out = .ok m0) (h0 : Writes mem m0 out w)
    (response : ℝ → ℂ) :
    ∃ m, kernelWindowedArbitrary e mem out response window = .ok m ∧
      Writes mem m out (fun i => w i * arbitraryTaps out.size response i) := by
  obtain ⟨imp, himp⟩ : ∃ imp, imp = c2r out.size (reg (out.size / 2 + 1) (fun k => response ((k : ℝ) / (out.size / 2 : ℕ)))) := ⟨_, rfl⟩
  have hl : imp.length = out.size := by rw [himp, c2r_length]
  obtain ⟨m1, m2, e1, e2, hw⟩ := arbitraryHalves m0 imp out out hodd hl (h0.within hm) rfl (h0.within hm) (Or.inl rfl) w h0.reads
    (fun m o i w => arithVV e.asserts e.vec e.W .mul m o w i) (by
      intro m o i w h1 h2 h3 h4 h5 h6 h7
      obtain ⟨m', e', l', v', r'⟩ := C40_vector_vector e.asserts e.vec e.W .mul m o w i h2 h1 h3 h5 h4 h7 (by omega)
      exact ⟨m', e', l', v', r'⟩)
  refine ⟨m2.take m0.length, ?_, ⟨hw.length.trans h0.length, ?_, fun j hj => (hw.rest j hj).trans (h0.rest j hj)⟩⟩
  · unfold kernelWindowedArbitrary
    rw [cassert_true hodd, Out.ok_bind, arbitraryImpulse_ok e _ hodd, Out.ok_bind, e0, Out.ok_bind, ← himp]
    simp only []
    rw [sub_ok (by omega), Out.ok_bind, subFrom_ok (by simp only []; omega), Out.ok_bind, compoundVV]
    simp only [] at e1 e2 ⊢
    rw [e1, Out.ok_bind, subFrom_ok (by omega), Out.ok_bind, sub_ok (by simp only []; omega), Out.ok_bind, compoundVV, e2]
    rfl
  · rw [arbitraryTaps_eq, ← himp]
    exact hw.written

/-- the same with a window that is given, and that may be the result itself -/
theorem kernelWindowedArbitraryGiven_writes (e : Exec) (mem : List ℝ) (out win : Span) (hodd : out.size % 2 = 1)
    (hm : out.Within mem) (hs : out.size = win.size) (hwi : win.Within mem) (hc : out.Compatible win) {w : ℕ → ℝ}
    (hr : Reads mem win w) (response : ℝ → ℂ) :
    ∃ m, kernelWindowedArbitraryGiven e mem out response win = .ok m ∧
      Writes mem m out (fun i => w i * arbitraryTaps out.size response i) := by
  obtain ⟨imp, himp⟩ : ∃ imp, imp = c2r out.size (reg (out.size / 2 + 1) (fun k => response ((k : ℝ) / (out.size / 2 : ℕ)))) := ⟨_, rfl⟩
  have hl : imp.length = out.size := by rw [himp, c2r_length]
  obtain ⟨m1, m2, e1, e2, hw⟩ := arbitraryHalves mem imp out win hodd hl hm hs hwi hc w hr
    (fun m o i w => arithVV e.asserts e.vec e.W .mul m o i w) (by
      intro m o i w h1 h2 h3 h4 h5 h6 h7
      obtain ⟨m', e', l', v', r'⟩ := C40_vector_vector e.asserts e.vec e.W .mul m o i w h1 h2 h3 h4 h5 (by omega) h7
      refine ⟨m', e', l', fun t x y ht hx hy => ?_, r'⟩
      rw [v' t y x ht hy hx]
      simp only [ArithOp.apply, mul_comm])
  refine ⟨m2.take mem.length, ?_, ⟨hw.length, ?_, hw.rest⟩⟩
  · unfold kernelWindowedArbitraryGiven
    rw [cassert_true hodd, Out.ok_bind, cassert_true hs, Out.ok_bind, arbitraryImpulse_ok e _ hodd, Out.ok_bind, ← himp]
    simp only []
    rw [sub_ok (by omega), Out.ok_bind, subFrom_ok (by simp only []; omega), Out.ok_bind, sub_ok (by omega), Out.ok_bind]
    simp only [] at e1 e2 ⊢
    rw [e1, Out.ok_bind, subFrom_ok (by omega), Out.ok_bind, sub_ok (by simp only []; omega), Out.ok_bind,
      subFrom_ok (by omega), Out.ok_bind, e2]
    rfl
  · rw [arbitraryTaps_eq, ← himp]
    exact hw.written

/-! ### what the taps are -/

/-- the frequency of bin `k` -/
theorem ru_exp (n : ℕ) (m : ℤ) : rootOfUnity n m = Complex.exp ((2 * Real.pi * m / n : ℝ) * I) := by
  rw [rootOfUnity]
  congr 1
  push_cast
  ring

theorem arbitraryTaps_response (n : ℕ) (hodd : n % 2 = 1) (response : ℝ → ℂ) (k : ℤ) :
    centredResponse n (arbitraryTaps n response) (2 * Real.pi * k / n) =
      hermitian n (fun k => response ((k : ℝ) / (n / 2 : ℕ))) k := by
  have hn : n ≠ 0 := by omega
  obtain ⟨c, hc⟩ : ∃ c, c = n / 2 := ⟨_, rfl⟩
  have hnc : n = 2 * c + 1 := by omega
  obtain ⟨l, hl⟩ : ∃ l, l = reg (n / 2 + 1) (fun k => response ((k : ℝ) / (n / 2 : ℕ))) := ⟨_, rfl⟩
  have hsig : ∀ k, k < n / 2 + 1 → sig l k = response ((k : ℝ) / (n / 2 : ℕ)) := by
    intro k hk
    rw [hl, sig_reg, if_pos hk]
  have hsp := c2r_spectrum n hn (hermitian n (sig l)) (hermitian_conj n hn _) (hermitian_period n _)
    (reg (n / 2 + 1) (fun k => hermitian n (sig l) k)) (fun k hk => by rw [sig_reg, if_pos hk]) k
  rw [← c2r_hermitian n hn] at hsp
  have hherm : hermitian n (sig l) k = hermitian n (fun k => response ((k : ℝ) / (n / 2 : ℕ))) k := by
    have hnz : (n : ℤ) ≠ 0 := by exact_mod_cast hn
    have h1 := Int.emod_nonneg k hnz
    have h2 := Int.emod_lt_of_pos k (show (0 : ℤ) < n by omega)
    unfold hermitian
    simp only []
    split
    · rw [hsig 0 (by omega)]
    · split
      · rw [hsig _ (by omega)]
      · split
        · rw [hsig _ (by omega)]
        · rw [hsig _ (by omega)]
  rw [← hherm, ← hsp, centredResponse, firResponse, Finset.mul_sum]
  -- both sides run over all samples of the impulse response
  have hL : ∀ i ∈ range n, Complex.exp (((2 * Real.pi * k / n) * (((n : ℝ) - 1) / 2) : ℝ) * I) *
      ((arbitraryTaps n response i : ℂ) * Complex.exp (-((2 * Real.pi * k / n) * i : ℝ) * I)) =
      (arbitraryTaps n response i : ℂ) * rootOfUnity n (-(((i : ℤ) - c) * k)) := by
    intro i _
    rw [mul_left_comm, ← Complex.exp_add, ru_exp]
    congr 2
    have hn1 : ((n : ℝ) - 1) / 2 = c := by rw [hnc]; push_cast; ring
    rw [hn1]
    push_cast
    ring
  rw [sum_congr rfl hL]
  have hsplit : ∀ F : ℕ → ℂ, ∑ i ∈ range n, F i = ∑ i ∈ range c, F i + ∑ i ∈ range (c + 1), F (c + i) := by
    intro F
    rw [← sum_range_add]
    congr 2
    omega
  have hsplit' : ∀ F : ℕ → ℂ, ∑ i ∈ range n, F i = ∑ i ∈ range (c + 1), F i + ∑ i ∈ range c, F (c + 1 + i) := by
    intro F
    rw [← sum_range_add]
    congr 2
    omega
  rw [hsplit, hsplit', add_comm]
  congr 1
  · apply sum_congr rfl
    intro i hi
    have := mem_range.1 hi
    rw [arbitraryTaps, if_neg (by omega), ← hl, show c + i - n / 2 = i by omega]
    congr 2
    push_cast
    ring
  · apply sum_congr rfl
    intro i hi
    have := mem_range.1 hi
    rw [arbitraryTaps, if_pos (by omega), ← hl, show i + (n / 2 + 1) = c + 1 + i by omega]
    congr 1
    rw [← ru_period n hn (-(((i : ℤ) - c) * k)) (-k)]
    congr 1
    rw [hnc]
    push_cast
    ring

theorem arbitraryTaps_palindrome (n : ℕ) (hodd : n % 2 = 1) (response : ℝ → ℂ) (hreal : ∀ f, (response f).im = 0) :
    Palindrome n (arbitraryTaps n response) := by
  have hn : n ≠ 0 := by omega
  obtain ⟨l, hl⟩ : ∃ l, l = reg (n / 2 + 1) (fun k => response ((k : ℝ) / (n / 2 : ℕ))) := ⟨_, rfl⟩
  have him : ∀ k, (sig l k).im = 0 := by
    intro k
    rw [hl, sig_reg]
    split
    · exact hreal _
    · rfl
  have key : ∀ j, 0 < j → j < n → sig (c2r n l) (n - j) = sig (c2r n l) j := by
    intro j h0 hj
    have e : c2r n l = reg n (fun j => (1 / (n : ℝ)) * ((sig l 0).re
      + 2 * ∑ k ∈ Finset.range ((n - 1) / 2), (sig l (k + 1) * rootOfUnity n ((j : ℤ) * (k + 1 : ℕ))).re
      + if n % 2 = 0 then (sig l (n / 2)).re * (-1) ^ j else 0)) := rfl
    rw [e, sig_reg, if_pos (by omega), sig_reg, if_pos hj]
    simp only [show ¬ n % 2 = 0 by omega, if_false]
    congr 4
    apply sum_congr rfl
    intro k _
    have h1 : rootOfUnity n (((n - j : ℕ) : ℤ) * ((k + 1 : ℕ) : ℤ)) = (starRingEnd ℂ) (rootOfUnity n ((j : ℤ) * ((k + 1 : ℕ) : ℤ))) := by
      rw [ru_conj, ← ru_period n hn (-((j : ℤ) * ((k + 1 : ℕ) : ℤ))) ((k + 1 : ℕ) : ℤ)]
      congr 1
      push_cast [Nat.cast_sub hj.le]
      ring
    rw [h1, Complex.mul_re, Complex.mul_re, him]
    simp
  intro i hi
  rw [arbitraryTaps, arbitraryTaps, ← hl]
  by_cases h : i = n / 2
  · rw [show n - 1 - i = i by omega]
  · by_cases h1 : i < n / 2
    · rw [if_neg (by omega), if_pos h1, ← key (i + (n / 2 + 1)) (by omega) (by omega)]
      congr 1
      omega
    · rw [if_pos (by omega), if_neg h1, ← key (i - n / 2) (by omega) (by omega)]
      congr 1
      omega

section
variable (e : Exec) (mem : List ℝ) (out : Span) (hodd : out.size % 2 = 1) (hm : out.Within mem)
include hodd hm

/-- **C66**: the design succeeds for every odd length, changes nothing but its result, and the taps are the window times a filter
`h` whose response, with the delay of half the length taken out, at the `k`-th of the frequencies `2πk/n` is the wanted response
at `k / (n/2)` (of the wanted response at zero frequency only the real part can be had).  If the wanted response is real, then
`h` is symmetric, and if the window is symmetric too, the designed filter has exactly linear phase.  With a rectangular window
the filter is `h`.

Missing: bin `k` of a filter of `n` taps is at the normalized frequency `2k/n`, so the wanted response should be taken there; the
library takes it at `2k/(n-1)`: `C66_grid_wrong`. -/
theorem C66_arbitrary_partial (window : List ℝ → Span → Out (List ℝ)) (w : ℕ → ℕ → ℝ) (hwin : FillsWindow window w)
    (response : ℝ → ℂ) :
    ∃ m h, designWindowedArbitrary e mem out response window = .ok m ∧ Writes mem m out (fun i => w out.size i * h i) ∧
      (∀ k : ℕ, 0 < k → k ≤ out.size / 2 →
        centredResponse out.size h (2 * Real.pi * k / out.size) = response ((k : ℝ) / (out.size / 2 : ℕ))) ∧
      centredResponse out.size h 0 = ((response 0).re : ℂ) ∧
      ((∀ f, (response f).im = 0) → Palindrome out.size h ∧
        (Palindrome out.size (w out.size) →
          Palindrome out.size (fun i => w out.size i * h i) ∧
          ∀ v, (centredResponse out.size (fun i => w out.size i * h i) v).im = 0)) := by
  obtain ⟨m0, e0, h0⟩ := hwin mem out hm
  obtain ⟨m, e1, h1⟩ := kernelWindowedArbitrary_writes e mem out hodd hm window e0 h0 response
  refine ⟨m, arbitraryTaps out.size response, e1, h1, fun k hk0 hk => ?_, ?_, fun hreal => ?_⟩
  · have := arbitraryTaps_response out.size hodd response k
    rw [hermitian_of_lt _ _ k (by omega) (by omega)] at this
    simpa using this
  · have := arbitraryTaps_response out.size hodd response 0
    rw [hermitian_zero] at this
    simpa using this
  · have hp := arbitraryTaps_palindrome out.size hodd response hreal
    refine ⟨hp, fun hw => ?_⟩
    have : Palindrome out.size (fun i => w out.size i * arbitraryTaps out.size response i) := by
      intro i hi
      simp only []
      rw [hw i hi, hp i hi]
    exact ⟨this, fun v => this.linear_phase v⟩

/-- **C66** with a window given as a signal (even the result signal itself): the same taps as with a window function. -/
theorem C66_given_window (win : Span) (hs : out.size = win.size) (hwi : win.Within mem)
    (hc : out = win ∨ out.pos + out.size ≤ win.pos ∨ win.pos + win.size ≤ out.pos) (v : ℕ → ℝ) (hr : Reads mem win v)
    (window : List ℝ → Span → Out (List ℝ)) (w : ℕ → ℕ → ℝ) (hwin : FillsWindow window w) (hv : ∀ i, i < out.size → w out.size i = v i)
    (response : ℝ → ℂ) :
    ∃ m m' g, designWindowedArbitraryGiven e mem out response win = .ok m ∧ Writes mem m out g ∧
      designWindowedArbitrary e mem out response window = .ok m' ∧ Writes mem m' out g := by
  obtain ⟨m0, e0, h0⟩ := hwin mem out hm
  obtain ⟨m', e2, h2⟩ := kernelWindowedArbitrary_writes e mem out hodd hm window e0 h0 response
  obtain ⟨m, e1, h1⟩ := kernelWindowedArbitraryGiven_writes e mem out win hodd hm hs hwi hc hr response
  exact ⟨m, m', _, e1, h1, e2, h2.congr fun i hi => by rw [hv i hi]⟩

end

theorem response_unique (n : ℕ) (hn : n ≠ 0) (h h' : ℕ → ℝ)
    (heq : ∀ k : ℕ, k ≤ n / 2 → centredResponse n h (2 * Real.pi * k / n) = centredResponse n h' (2 * Real.pi * k / n)) :
    ∀ i, i < n → h i = h' i := by
  have hn' : (n : ℂ) ≠ 0 := by exact_mod_cast hn
  have hbin : ∀ (g : ℕ → ℝ) (k : ℤ), firResponse n g (2 * Real.pi * k / n) = ∑ j ∈ range n, (g j : ℂ) * rootOfUnity n (-((j : ℤ) * k)) := by
    intro g k
    rw [firResponse]
    apply sum_congr rfl
    intro j _
    rw [ru_exp]
    congr 2
    push_cast
    ring
  have hconj : ∀ (g : ℕ → ℝ) (k : ℤ), (starRingEnd ℂ) (firResponse n g (2 * Real.pi * k / n)) = firResponse n g (2 * Real.pi * (-k : ℤ) / n) := by
    intro g k
    rw [hbin, hbin, map_sum]
    apply sum_congr rfl
    intro j _
    rw [map_mul, ru_conj, conj_ofReal]
    congr 2
    ring
  have hfir : ∀ k : ℕ, k ≤ n / 2 → firResponse n h (2 * Real.pi * k / n) = firResponse n h' (2 * Real.pi * k / n) := by
    intro k hk
    have := heq k hk
    rw [centredResponse, centredResponse] at this
    exact mul_left_cancel₀ (Complex.exp_ne_zero _) this
  have hall : ∀ k : ℕ, k < n → firResponse n h (2 * Real.pi * (k : ℤ) / n) = firResponse n h' (2 * Real.pi * (k : ℤ) / n) := by
    intro k hk
    by_cases h2 : k ≤ n / 2
    · exact_mod_cast hfir k h2
    · have hh : ∀ g : ℕ → ℝ, firResponse n g (2 * Real.pi * (k : ℤ) / n) = (starRingEnd ℂ) (firResponse n g (2 * Real.pi * ((n - k : ℕ) : ℤ) / n)) := by
        intro g
        rw [hconj, hbin, hbin]
        apply sum_congr rfl
        intro j _
        congr 1
        rw [← ru_period n hn (-((j : ℤ) * k)) j]
        congr 1
        push_cast [Nat.cast_sub hk.le]
        ring
      rw [hh, hh]
      congr 1
      exact_mod_cast hfir (n - k) (by omega)
  have hper : ∀ g : ℕ → ℝ, ∀ i, i < n → (g i : ℂ) = (1 / (n : ℂ)) * ∑ k ∈ range n,
      firResponse n g (2 * Real.pi * (k : ℤ) / n) * rootOfUnity n ((i : ℤ) * k) := by
    intro g i hi
    have e : ∀ k ∈ range n, firResponse n g (2 * Real.pi * (k : ℤ) / n) * rootOfUnity n ((i : ℤ) * k) =
        ∑ j ∈ range n, (g j : ℂ) * rootOfUnity n (((i : ℤ) - j) * k) := by
      intro k _
      rw [hbin, sum_mul]
      apply sum_congr rfl
      intro j _
      rw [mul_assoc, ← ru_add]
      congr 2
      ring
    rw [sum_congr rfl e, sum_comm]
    simp only [← mul_sum]
    rw [sum_eq_single i]
    · rw [ru_sum _ hn, if_pos (by simp)]
      field_simp
    · intro j hj hne
      rw [ru_sum _ hn, if_neg, mul_zero]
      intro hd
      have hj' := mem_range.1 hj
      have := Int.eq_zero_of_abs_lt_dvd hd (by rw [abs_lt]; omega)
      omega
    · intro hh
      exact absurd (mem_range.2 hi) hh
  intro i hi
  have h1 := hper h i hi
  have h2 := hper h' i hi
  have : (h i : ℂ) = h' i := by
    rw [h1, h2]
    congr 1
    apply sum_congr rfl
    intro k hk
    rw [hall k (mem_range.1 hk)]
  exact_mod_cast this

/-- **C66**: the taps are determined by these responses. -/
theorem C66_unique (n : ℕ) (hodd : n % 2 = 1) (h h' : ℕ → ℝ)
    (heq : ∀ k : ℕ, k ≤ n / 2 → centredResponse n h (2 * Real.pi * k / n) = centredResponse n h' (2 * Real.pi * k / n)) :
    ∀ i, i < n → h i = h' i := response_unique n (by omega) h h' heq

/-- **C66**, what the library gets wrong: three taps, rectangular window, wanted response `f ↦ f`: at normalized frequency 2/3
(bin 1 of 3) the response is 1 instead of 2/3. -/
theorem C66_grid_wrong (e : Exec) :
    ∃ m h, designWindowedArbitrary e [0, 0, 0] ⟨0, 3⟩ (fun f => (f : ℂ)) rectangularWindow = .ok m ∧
      Writes [0, 0, 0] m ⟨0, 3⟩ h ∧ centredResponse 3 h (Real.pi * (2 / 3)) = 1 ∧ (1 : ℂ) ≠ ((2 / 3 : ℝ) : ℂ) := by
  obtain ⟨m, h, e1, h1, h2, -⟩ := C66_arbitrary_partial e [0, 0, 0] ⟨0, 3⟩ rfl (by simp [Span.Within]) rectangularWindow
    (fun _ _ => 1) (fun mem out hm => C46_rectangular mem out hm) (fun f => (f : ℂ))
  refine ⟨m, h, e1, h1.congr (fun i _ => by simp), ?_, ?_⟩
  · have := h2 1 (by norm_num) (by norm_num)
    norm_num at this
    rw [show Real.pi * (2 / 3) = 2 * Real.pi / 3 by ring]
    exact this
  · intro hh
    have := congrArg Complex.re hh
    simp at this
    norm_num at this

/-- **C66**: even lengths are refused. -/
theorem C66_even_refused (e : Exec) (mem : List ℝ) (out : Span) (heven : out.size % 2 = 0) (response : ℝ → ℂ)
    (window : List ℝ → Span → Out (List ℝ)) : designWindowedArbitrary e mem out response window = .assertFail := by
  unfold designWindowedArbitrary kernelWindowedArbitrary
  rw [cassert, if_neg (by omega)]
  rfl

end Verif
