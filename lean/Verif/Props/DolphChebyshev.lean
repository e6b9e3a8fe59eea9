import Verif.Model.DolphChebyshev
import Verif.Props.FirArbitrary
import Verif.Props.FFT
import Verif.Props.Statistics
import Mathlib.Analysis.SpecialFunctions.Trigonometric.Chebyshev.RootsExtrema
import Mathlib.LinearAlgebra.Lagrange

/-! # Property C68: the Dolph-Chebyshev window -/

set_option linter.unusedSimpArgs false

namespace Verif
open Complex Finset Polynomial

theorem negOnePow_cast (n : ℕ) : (((n : ℤ).negOnePow : ℤ) : ℝ) = (-1) ^ n := by
  rw [Int.negOnePow_def]
  simp

/-- the function in the library is the Chebyshev polynomial, everywhere -/
theorem chebyshevPoly_eq (n : ℕ) (x : ℝ) : chebyshevPoly n x = (Chebyshev.T ℝ n).eval x := by
  unfold chebyshevPoly
  simp only []
  split
  · rename_i h
    have h1 : (Chebyshev.T ℝ n).eval (-x) = Real.cosh (n * Real.arcosh (-x)) := by
      conv_lhs => rw [← Real.cosh_arcosh (show 1 ≤ -x by linarith)]
      rw [Chebyshev.T_real_cosh]
      simp
    rw [← h1, Chebyshev.T_eval_neg, ← mul_assoc]
    have h2 : ((if n % 2 = 0 then 1 else -1 : ℝ)) = (-1) ^ n := by
      split
      · rename_i h; rw [Even.neg_one_pow (Nat.even_iff.2 h)]
      · rename_i h; rw [Odd.neg_one_pow (Nat.odd_iff.2 (by omega))]
    have h3 : ((((n : ℤ).negOnePow : ℤˣ) : ℤ) : ℝ) = (-1) ^ n := negOnePow_cast n
    rw [h2, h3, ← mul_pow]
    simp
  · split
    · rename_i h1 h2
      have := Chebyshev.T_real_cos (Real.arccos x) n
      rw [Real.cos_arccos (by linarith) h2] at this
      rw [this]
      simp
    · rename_i h1 h2
      have := Chebyshev.T_real_cosh (Real.arcosh x) n
      rw [Real.cosh_arcosh (by linarith)] at this
      rw [this]
      simp

/-- `z^(n/2) T_n (β (z^(1/2) + z^(-1/2)) / 2)` as a polynomial of `z` -/
noncomputable def shiftedT (β : ℂ) : ℕ → ℂ[X]
  | 0 => 1
  | 1 => C (β / 2) * (X + 1)
  | n + 2 => C β * (X + 1) * shiftedT β (n + 1) - X * shiftedT β n

theorem shiftedT_degree (β : ℂ) : ∀ n, (shiftedT β n).natDegree ≤ n
  | 0 => by simp [shiftedT]
  | 1 => by
    unfold shiftedT
    compute_degree
  | n + 2 => by
    have h1 := shiftedT_degree β (n + 1)
    have h0 := shiftedT_degree β n
    unfold shiftedT
    refine (natDegree_sub_le _ _).trans (max_le ?_ ?_)
    · refine natDegree_mul_le.trans ?_
      have : (C β * (X + 1)).natDegree ≤ 1 := by compute_degree
      omega
    · refine natDegree_mul_le.trans ?_
      have : (X : ℂ[X]).natDegree ≤ 1 := by compute_degree
      omega

theorem shiftedT_eval (β u : ℂ) (hu : u ≠ 0) : ∀ n : ℕ,
    (shiftedT β n).eval (u ^ 2) = u ^ n * (Chebyshev.T ℂ n).eval (β * ((u + u⁻¹) / 2))
  | 0 => by simp [shiftedT]
  | 1 => by
    simp [shiftedT]
    field_simp
  | n + 2 => by
    have h1 := shiftedT_eval β u hu (n + 1)
    have h0 := shiftedT_eval β u hu n
    have ht : Chebyshev.T ℂ ((n + 2 : ℕ) : ℤ) = 2 * X * Chebyshev.T ℂ ((n + 1 : ℕ) : ℤ) - Chebyshev.T ℂ (n : ℤ) := by
      have := Chebyshev.T_add_two ℂ (n : ℤ)
      push_cast
      rw [this]
    rw [ht]
    unfold shiftedT
    simp only [Polynomial.eval_sub, Polynomial.eval_mul, Polynomial.eval_C, Polynomial.eval_add, Polynomial.eval_X,
      Polynomial.eval_one, Polynomial.eval_ofNat, h1, h0]
    generalize (Chebyshev.T ℂ ((n + 1 : ℕ) : ℤ)).eval (β * ((u + u⁻¹) / 2)) = t1
    generalize (Chebyshev.T ℂ (n : ℤ)).eval (β * ((u + u⁻¹) / 2)) = t0
    field_simp
    ring

theorem complex_cos_half (w : ℝ) : ((Real.cos (w / 2) : ℝ) : ℂ) = (exp (-(w / 2 : ℝ) * I) + (exp (-(w / 2 : ℝ) * I))⁻¹) / 2 := by
  rw [← Complex.exp_neg, Complex.ofReal_cos, Complex.cos]
  push_cast
  ring_nf

/-- A real filter with the response of a scaled Chebyshev polynomial at the bins has it at all frequencies. -/
theorem response_everywhere (N : ℕ) (hN : 0 < N) (g : ℕ → ℝ) (β : ℝ)
    (h : ∀ k : ℕ, k < N → centredResponse N g (2 * Real.pi * k / N) =
      (((Chebyshev.T ℝ ((N - 1 : ℕ) : ℤ)).eval (β * Real.cos (Real.pi * k / N)) : ℝ) : ℂ)) (w : ℝ) :
    centredResponse N g w = (((Chebyshev.T ℝ ((N - 1 : ℕ) : ℤ)).eval (β * Real.cos (w / 2)) : ℝ) : ℂ) := by
  obtain ⟨P, hP⟩ : ∃ P : ℂ[X], P = ∑ i ∈ range N, C (g i : ℂ) * X ^ i := ⟨_, rfl⟩
  have hPdeg : P.degree < N := by
    rw [hP]
    refine (degree_sum_le _ _).trans_lt ?_
    refine (Finset.sup_lt_iff (WithBot.bot_lt_coe N)).2 ?_
    intro i hi
    refine (degree_C_mul_X_pow_le _ _).trans_lt ?_
    exact WithBot.coe_lt_coe.2 (mem_range.1 hi)
  have hQdeg : (shiftedT (β : ℂ) (N - 1)).degree < N := by
    refine (degree_le_of_natDegree_le (shiftedT_degree _ _)).trans_lt ?_
    exact WithBot.coe_lt_coe.2 (by omega : N - 1 < N)
  have hPe : ∀ v : ℝ, P.eval (exp (-(v : ℂ) * I)) = firResponse N g v := by
    intro v
    rw [hP, eval_finsetSum, firResponse]
    apply sum_congr rfl
    intro i _
    rw [eval_mul, eval_C, eval_pow, eval_X, ← Complex.exp_nat_mul]
    congr 2
    push_cast
    ring
  have hQe : ∀ v : ℝ, (shiftedT (β : ℂ) (N - 1)).eval (exp (-(v : ℂ) * I)) =
      exp (-((v * (((N : ℝ) - 1) / 2) : ℝ) : ℂ) * I) * (((Chebyshev.T ℝ ((N - 1 : ℕ) : ℤ)).eval (β * Real.cos (v / 2)) : ℝ) : ℂ) := by
    intro v
    have hu : exp (-(v : ℂ) * I) = exp (-((v / 2 : ℝ) : ℂ) * I) ^ 2 := by
      rw [← Complex.exp_nat_mul]
      congr 1
      push_cast
      ring
    rw [hu, shiftedT_eval _ _ (Complex.exp_ne_zero _), ← complex_cos_half, Chebyshev.complex_ofReal_eval_T, ofReal_mul β]
    congr 1
    rw [← Complex.exp_nat_mul]
    congr 1
    push_cast [Nat.cast_sub (show 1 ≤ N by omega)]
    ring
  have hconv : ∀ v : ℝ, centredResponse N g v = exp ((v * (((N : ℝ) - 1) / 2) : ℝ) * I) * firResponse N g v := fun _ => rfl
  have hback : ∀ v z, exp (-((v * (((N : ℝ) - 1) / 2) : ℝ) : ℂ) * I) * (exp ((v * (((N : ℝ) - 1) / 2) : ℝ) * I) * z) = z := by
    intro v z
    rw [← mul_assoc, ← Complex.exp_add]
    simp
  have hforth : ∀ (v : ℝ) z, exp ((v * (((N : ℝ) - 1) / 2) : ℝ) * I) * (exp (-((v * (((N : ℝ) - 1) / 2) : ℝ) : ℂ) * I) * z) = z := by
    intro v z
    rw [← mul_assoc, ← Complex.exp_add]
    simp
  have hPQ : P = shiftedT (β : ℂ) (N - 1) := by
    refine eq_of_degrees_lt_of_eval_index_eq (range N) (v := fun k : ℕ => exp (-((2 * Real.pi * k / N : ℝ) : ℂ) * I)) ?_
      (by simpa using hPdeg) (by simpa using hQdeg) ?_
    · intro a ha b hb hab
      have ha := mem_range.1 (Finset.mem_coe.1 ha)
      have hb := mem_range.1 (Finset.mem_coe.1 hb)
      have h1 : ∀ k : ℕ, exp (-((2 * Real.pi * k / N : ℝ) : ℂ) * I) = rootOfUnity N (-(k : ℤ)) := by
        intro k
        rw [ru_exp]
        congr 1
        push_cast
        ring
      simp only [h1] at hab
      have h2 : rootOfUnity N ((b : ℤ) - a) = 1 := by
        have : rootOfUnity N ((b : ℤ) - a) = rootOfUnity N (-(a : ℤ)) * rootOfUnity N b := by
          rw [← ru_add]; congr 1; ring
        rw [this, hab, ← ru_add]
        simp
      have := (ru_eq_one_iff N (by omega) _).1 h2
      have := Int.eq_zero_of_abs_lt_dvd this (by rw [abs_lt]; omega)
      omega
    · intro k hk
      have := h k (mem_range.1 hk)
      rw [hPe, hQe, show 2 * Real.pi * k / N / 2 = Real.pi * k / N by ring, ← this, hconv, hback]
  rw [hconv, ← hPe, hPQ, hQe, hforth]

/-! ### the window before normalization -/

theorem eval_T_neg (n : ℕ) (x : ℝ) : (Chebyshev.T ℝ (n : ℤ)).eval (-x) = (-1) ^ n * (Chebyshev.T ℝ (n : ℤ)).eval x := by
  have := Chebyshev.T_eval_neg (R := ℝ) (n : ℤ) x
  rw [this]
  congr 1
  exact negOnePow_cast n

/-- the spectrum the library transforms back -/
noncomputable def dolphSpectrum (N : ℕ) (β : ℝ) (k : ℤ) : ℂ :=
  exp (I * ((Real.pi * k / N : ℝ) : ℂ) * (((N - 1) % 2 : ℕ) : ℂ)) *
    (((Chebyshev.T ℝ ((N - 1 : ℕ) : ℤ)).eval (β * Real.cos (Real.pi * k / N)) : ℝ) : ℂ)

theorem dolphSpectrum_conj (N : ℕ) (β : ℝ) (k : ℤ) : (starRingEnd ℂ) (dolphSpectrum N β k) = dolphSpectrum N β (-k) := by
  unfold dolphSpectrum
  rw [map_mul, conj_ofReal, ← Complex.exp_conj, map_mul, map_mul, conj_I, conj_ofReal, map_natCast]
  congr 1
  · congr 1
    push_cast
    ring
  · rw [show Real.pi * ((-k : ℤ) : ℝ) / N = -(Real.pi * k / N) by push_cast; ring, Real.cos_neg]

theorem dolphSpectrum_period (N : ℕ) (hN : 0 < N) (β : ℝ) (k : ℤ) : dolphSpectrum N β (k + N) = dolphSpectrum N β k := by
  have hn : (N : ℝ) ≠ 0 := by positivity
  have e : Real.pi * ((k + N : ℤ) : ℝ) / N = Real.pi * k / N + Real.pi := by
    push_cast
    field_simp
  unfold dolphSpectrum
  rw [e, Real.cos_add_pi, mul_neg, eval_T_neg]
  rcases Nat.mod_two_eq_zero_or_one (N - 1) with h | h
  · rw [h, Even.neg_one_pow (Nat.even_iff.2 h)]
    simp
  · rw [h, Odd.neg_one_pow (Nat.odd_iff.2 h)]
    push_cast
    rw [show I * (Real.pi * k / N + Real.pi) * 1 = I * (Real.pi * k / N) * 1 + Real.pi * I by ring, Complex.exp_add, Complex.exp_pi_mul_I]
    ring

/-- a rotated signal has a rotated spectrum -/
theorem rotate_dft (N : ℕ) (hN : N ≠ 0) (s : ℕ) (x y : ℕ → ℝ) (h : ∀ k, k < N → y ((k + s) % N) = x k) (m : ℤ) :
    ∑ j ∈ range N, (y j : ℂ) * rootOfUnity N (-((j : ℤ) * m)) =
      rootOfUnity N (-((s : ℤ) * m)) * ∑ j ∈ range N, (x j : ℂ) * rootOfUnity N (-((j : ℤ) * m)) := by
  rw [mul_sum]
  symm
  apply sum_bij (fun k _ => (k + s) % N)
  · intro k _
    exact mem_range.2 (Nat.mod_lt _ (by omega))
  · intro a ha b hb hab
    have ha := mem_range.1 ha
    have hb := mem_range.1 hb
    have : a ≡ b [MOD N] := Nat.ModEq.add_right_cancel' s hab
    exact Nat.ModEq.eq_of_lt_of_lt this ha hb
  · intro b hb
    have hb := mem_range.1 hb
    refine ⟨(b + (N - s % N)) % N, mem_range.2 (Nat.mod_lt _ (by omega)), ?_⟩
    have h1 : s % N < N := Nat.mod_lt _ (by omega)
    rw [Nat.mod_add_mod]
    have h2 : b + (N - s % N) + s = b + N * (1 + s / N) := by
      have := Nat.mod_add_div s N
      rw [Nat.mul_add, mul_one]
      omega
    rw [h2, Nat.add_mul_mod_self_left, Nat.mod_eq_of_lt hb]
  · intro k hk
    rw [h k (mem_range.1 hk), mul_left_comm, ← ru_add]
    congr 1
    have h2 : ((k + s : ℕ) : ℤ) = ((k + s) % N : ℕ) + N * ((k + s) / N : ℕ) := by
      exact_mod_cast (Nat.mod_add_div (k + s) N).symm
    rw [← ru_period N hN (-((((k + s) % N : ℕ) : ℤ) * m)) (-(((k + s) / N : ℕ) : ℤ) * m)]
    congr 1
    push_cast at h2 ⊢
    linear_combination (-m) * h2

theorem fir_bin (n : ℕ) (g : ℕ → ℝ) (k : ℤ) :
    firResponse n g (2 * Real.pi * k / n) = ∑ j ∈ range n, (g j : ℂ) * rootOfUnity n (-((j : ℤ) * k)) := by
  rw [firResponse]
  apply sum_congr rfl
  intro j _
  rw [ru_exp]
  congr 2
  push_cast
  ring

/-- the response of the window before normalization -/
theorem dolph_response (N : ℕ) (hN : 0 < N) (β : ℝ) (l : List ℂ) (hl : ∀ k, k < N / 2 + 1 → sig l k = dolphSpectrum N β k) (y : ℕ → ℝ)
    (hy : ∀ k, k < N → y ((k + N / 2) % N) = sig (c2r N l) k) (v : ℝ) :
    centredResponse N y v = (((Chebyshev.T ℝ ((N - 1 : ℕ) : ℤ)).eval (β * Real.cos (v / 2)) : ℝ) : ℂ) := by
  have hn : (N : ℝ) ≠ 0 := by positivity
  refine response_everywhere N hN y β (fun k _ => ?_) v
  have h1 := c2r_spectrum N (by omega) _ (dolphSpectrum_conj N β) (dolphSpectrum_period N hN β) l hl k
  have h2 := rotate_dft N (by omega) (N / 2) _ y hy k
  have h3 := fir_bin N y k
  rw [h2, h1] at h3
  have hk : 2 * Real.pi * (k : ℤ) / N = 2 * Real.pi * k / N := by push_cast; rfl
  rw [hk] at h3
  rw [centredResponse, h3, dolphSpectrum, ru_exp, ← mul_assoc, ← mul_assoc, ← Complex.exp_add, ← Complex.exp_add]
  have hz : exp (((2 * Real.pi * k / N * (((N : ℝ) - 1) / 2) : ℝ) : ℂ) * I +
      ((2 * Real.pi * ((-(((N / 2 : ℕ) : ℤ) * (k : ℤ)) : ℤ) : ℝ) / N : ℝ) : ℂ) * I +
      I * ((Real.pi * ((k : ℤ) : ℝ) / N : ℝ) : ℂ) * (((N - 1) % 2 : ℕ) : ℂ)) = 1 := by
    have hz : (2 * Real.pi * k / N * (((N : ℝ) - 1) / 2)) + (2 * Real.pi * ((-(((N / 2 : ℕ) : ℤ) * (k : ℤ)) : ℤ) : ℝ) / N) +
        (Real.pi * ((k : ℤ) : ℝ) / N) * (((N - 1) % 2 : ℕ) : ℝ) = 0 := by
      obtain ⟨q, hq⟩ : ∃ q, q = N / 2 := ⟨_, rfl⟩
      rw [← hq]
      rcases Nat.mod_two_eq_zero_or_one N with h | h
      · have : (N - 1) % 2 = 1 := by omega
        rw [this, show (N : ℝ) = 2 * q by exact_mod_cast (by omega : N = 2 * q)]
        have : (q : ℝ) ≠ 0 := by
          have : q ≠ 0 := by omega
          exact_mod_cast this
        push_cast
        field_simp
        ring
      · have : (N - 1) % 2 = 0 := by omega
        rw [this, show (N : ℝ) = 2 * q + 1 by exact_mod_cast (by omega : N = 2 * q + 1)]
        have : (2 * q + 1 : ℝ) ≠ 0 := by positivity
        push_cast
        field_simp
        ring
    rw [show ∀ (a b c : ℝ) (d : ℕ), (a : ℂ) * I + b * I + I * (c : ℂ) * (d : ℂ) = ((a + b + c * (d : ℝ) : ℝ) : ℂ) * I by intros; push_cast; ring, hz]
    simp
  rw [hz, one_mul]
  push_cast
  rfl

theorem dolph_palindrome (N : ℕ) (hN : 0 < N) (y : ℕ → ℝ) (f : ℝ → ℝ) (h : ∀ v, centredResponse N y v = (f v : ℂ)) : Palindrome N y := by
  have := response_unique N (by omega) (fun i => y (N - 1 - i)) y (fun k _ => by
    rw [centredResponse_reverse, h, conj_ofReal])
  exact this

theorem storeV_writes {K : Type} (mem v : List K) (out : Span) (hm : out.Within mem) (hv : v.length = out.size) [Zero K] :
    ∃ m, storeV mem out.pos v = .ok m ∧ Writes mem m out (sig v) := by
  unfold Span.Within at hm
  refine ⟨mem.take out.pos ++ v ++ mem.drop (out.pos + v.length), by rw [storeV, if_pos (by omega)], ?_, ?_, ?_⟩
  · simp
    omega
  · intro i hi
    rw [List.append_assoc, List.getElem?_append_right (by simp), List.getElem?_append_left (by simp; omega)]
    simp only [List.length_take]
    rw [show out.pos + i - min out.pos mem.length = i by omega]
    exact sig_some v (by omega)
  · intro j hj
    rcases hj with hj | hj
    · rw [List.append_assoc, List.getElem?_append_left (by simp; omega), List.getElem?_take_of_lt hj]
    · rw [List.getElem?_append_right (by simp; omega), List.getElem?_drop]
      congr 1
      simp
      omega

theorem absMax_spec {c : Kern} (hc : c.Ok) (x : List ℝ) (hx : x ≠ []) :
    ∃ s, transformReduce c.vec c.W c.red₁ c.red₂ (fun v => |v|) x 0 x.length 0 (plainOp (fun a b => max a b)) = .ok s ∧
      (∃ a ∈ x, |a| = s) ∧ ∀ a ∈ x, |a| ≤ s := by
  obtain ⟨t, hp, he⟩ := C10_transformReduce_any_op c.vec c.W hc.1 c.red₁ c.red₂ hc.2.1 hc.2.2 (fun a b : ℝ => max a b)
    (fun v : ℝ => |v|) x 0 x.length (by omega) 0
  simp only [List.drop_zero, List.take_length] at hp
  rw [tree_eval_comm _ (fun a b c => max_assoc a b c) (fun a b => max_comm a b) t 0 _ hp] at he
  obtain ⟨h1, h2, h3⟩ := foldl_max_spec (x.map fun v => |v|) 0
  refine ⟨_, he, ?_, fun a ha => h3 _ (List.mem_map.2 ⟨a, ha, rfl⟩)⟩
  rcases h1 with h | h
  · obtain ⟨a, l, rfl⟩ := List.exists_cons_of_ne_nil hx
    refine ⟨a, by simp, ?_⟩
    have := h3 |a| (List.mem_map.2 ⟨a, by simp, rfl⟩)
    rw [h] at this
    rw [h]
    exact le_antisymm this (abs_nonneg _)
  · obtain ⟨a, ha, hb⟩ := List.mem_map.1 h
    exact ⟨a, ha, hb⟩

theorem dolph_grid (e : Exec) (N : ℕ) (hN : 2 ≤ N) :
    linSpaceNew e 0 (Real.pi * (((N / 2 + 1 - 1 : ℕ) : ℝ) / (N : ℝ))) (N / 2 + 1) true = .ok (reg (N / 2 + 1) (fun k => Real.pi * k / N)) := by
  have hw : (⟨0, N / 2 + 1⟩ : Span).Within (List.replicate (N / 2 + 1) (0 : ℝ)) := by simp [Span.Within]
  obtain ⟨m, e1, h1⟩ := linSpace_writes e hw (Writes.refl _ _ hw) 0 (Real.pi * (((N / 2 + 1 - 1 : ℕ) : ℝ) / (N : ℝ))) true
  unfold linSpaceNew
  rw [e1, h1.whole (by simp)]
  congr 1
  apply reg_congr
  intro k _
  have hd : linDivisor (N / 2 + 1) true = N / 2 := by unfold linDivisor; simp; omega
  simp only [hd, Nat.add_sub_cancel]
  have : ((N / 2 : ℕ) : ℝ) ≠ 0 := by
    have : N / 2 ≠ 0 := by omega
    exact_mod_cast this
  have hn : (N : ℝ) ≠ 0 := by
    have : N ≠ 0 := by omega
    exact_mod_cast this
  field_simp
  ring

section
variable (e : Exec) (c : Kern) (hc : c.Ok) (mem : List ℝ) (out : Span) (hm : out.Within mem) (h2 : 2 ≤ out.size) (att : ℝ)
  (ha0 : 0 < att) (ha1 : att ≤ 1)
include hc hm h2 ha0 ha1

/-- **C68**: for two or more samples and every attenuation in (0, 1] the window is computed, nothing but the window is written,
it is symmetric, its largest magnitude is exactly one, and its frequency response is, at every frequency, the sum of the window
times the Chebyshev polynomial of degree `n - 1` that is `1 / attenuation` at its right end, taken at `β cos (ω/2)`. -/
theorem C68_dolphChebyshev :
    ∃ m w β, dolphChebyshevWindow e c mem out att = .ok m ∧ Writes mem m out w ∧ Palindrome out.size w ∧
      (∀ i, i < out.size → |w i| ≤ 1) ∧ (∃ i, i < out.size ∧ |w i| = 1) ∧ 0 < ∑ i ∈ range out.size, w i ∧
      1 ≤ β ∧ (Chebyshev.T ℝ ((out.size - 1 : ℕ) : ℤ)).eval β = 1 / att ∧
      ∀ v, centredResponse out.size w v = (((∑ i ∈ range out.size, w i) * att *
        (Chebyshev.T ℝ ((out.size - 1 : ℕ) : ℤ)).eval (β * Real.cos (v / 2)) : ℝ) : ℂ) := by
  obtain ⟨N, hN⟩ : ∃ N, N = out.size := ⟨_, rfl⟩
  have hM : usub out.size 1 = N - 1 := by rw [usub, if_pos (by omega), hN]
  have hM0 : ((N - 1 : ℕ) : ℝ) ≠ 0 := by
    have : N - 1 ≠ 0 := by omega
    exact_mod_cast this
  have ha1' : 1 ≤ 1 / att := (le_div_iff₀ ha0).2 (by linarith)
  obtain ⟨β, hβ⟩ : ∃ β, β = Real.cosh (1 / ((N - 1 : ℕ) : ℝ) * Real.arcosh (1 / att)) := ⟨_, rfl⟩
  have hTβ : (Chebyshev.T ℝ ((N - 1 : ℕ) : ℤ)).eval β = 1 / att := by
    rw [hβ, Chebyshev.T_real_cosh]
    rw [show (((N - 1 : ℕ) : ℤ) : ℝ) * (1 / ((N - 1 : ℕ) : ℝ) * Real.arcosh (1 / att)) = Real.arcosh (1 / att) by
      push_cast; field_simp, Real.cosh_arcosh ha1']
  obtain ⟨l, hl⟩ : ∃ l, l = (reg (N / 2 + 1) (fun k : ℕ => Real.pi * k / N)).map fun (k : ℝ) =>
    exp (I * (k : ℂ) * (((N - 1) % 2 : ℕ) : ℂ)) * ((chebyshevPoly (N - 1) (β * Real.cos k) : ℝ) : ℂ) := ⟨_, rfl⟩
  have hll : l.length = N / 2 + 1 := by rw [hl]; simp [reg]
  have hls : ∀ k, k < N / 2 + 1 → sig l k = dolphSpectrum N β k := by
    intro k hk
    have : l = reg (N / 2 + 1) (fun k : ℕ => exp (I * ((Real.pi * k / N : ℝ) : ℂ) * (((N - 1) % 2 : ℕ) : ℂ)) *
        ((chebyshevPoly (N - 1) (β * Real.cos (Real.pi * k / N)) : ℝ) : ℂ)) := by
      rw [hl, reg, reg, List.map_map]
      rfl
    rw [this, sig_reg, if_pos hk, dolphSpectrum, chebyshevPoly_eq]
    push_cast
    rfl
  have hNw : out.size = N := hN.symm
  obtain ⟨m1, e1, w1⟩ := storeV_writes mem (c2r N l) out hm (by rw [c2r_length, hNw])
  have hc1 : out.contents m1 = c2r N l := by
    rw [Span.contents, w1.contents hm]
    apply list_ext_sig
    · simp [c2r_length, hNw]
    · intro i hi
      simp only [List.length_map, List.length_range] at hi
      exact (sig_reg _ _ _).trans (if_pos hi)
  obtain ⟨y, e2, hperm, hy⟩ := C36_fftShift (c2r N l)
  have hyl : y.length = N := by rw [hperm.length_eq, c2r_length]
  rw [c2r_length] at hy
  obtain ⟨m2, e3, w2⟩ := storeV_writes m1 y out (w1.within hm) (by rw [hyl, hNw])
  have hc2 : out.contents m2 = y := by
    rw [Span.contents, w2.contents (w1.within hm)]
    apply list_ext_sig
    · simp [hyl, hNw]
    · intro i hi
      simp only [List.length_map, List.length_range] at hi
      exact (sig_reg _ _ _).trans (if_pos hi)
  have hresp := dolph_response N (by omega) β l hls (sig y) (fun k hk => by
    have h1 := hy k hk
    have h3 : (k + N / 2) % N < N := Nat.mod_lt _ (by omega)
    rw [sig_some _ (by omega), sig_some _ (by rw [c2r_length]; exact hk)] at h1
    exact Option.some.inj h1)
  have hsum : ∑ i ∈ range N, sig y i = 1 / att := by
    have := hresp 0
    rw [centredResponse, firResponse] at this
    simp only [zero_mul, zero_div, ofReal_zero, neg_zero, Complex.exp_zero, one_mul, mul_one, Real.cos_zero, hTβ] at this
    exact_mod_cast this
  have hpos : 0 < 1 / att := by positivity
  obtain ⟨S, e4, ⟨a, ham, haS⟩, hle⟩ := absMax_spec hc y (by intro h; rw [h] at hyl; simp at hyl; omega)
  have hS : 0 < S := by
    by_contra hh
    have h0 : ∀ i ∈ range N, sig y i = 0 := by
      intro i hi
      have := mem_range.1 hi
      have hmem : sig y i ∈ y := List.mem_of_getElem? (sig_some y (by omega))
      have := hle _ hmem
      exact abs_eq_zero.1 (le_antisymm (by linarith) (abs_nonneg _))
    rw [sum_eq_zero h0] at hsum
    linarith
  obtain ⟨m3, e5, w3⟩ := compoundVS_writes e .mul (1 / S) (w1.within hm) w2
  have hw3 : Writes mem m3 out (fun i => sig y i * (1 / S)) := w1.trans w3
  have hrw : ∀ v, centredResponse N (fun i => sig y i * (1 / S)) v = (((1 / S) * (Chebyshev.T ℝ ((N - 1 : ℕ) : ℤ)).eval (β * Real.cos (v / 2)) : ℝ) : ℂ) := by
    intro v
    rw [ofReal_mul, ← hresp, centredResponse, centredResponse, firResponse, firResponse, mul_sum, mul_sum, mul_sum]
    apply sum_congr rfl
    intro i _
    push_cast
    ring
  have hsw : ∑ i ∈ range N, sig y i * (1 / S) = 1 / att * (1 / S) := by rw [← sum_mul, hsum]
  refine ⟨m3, fun i => sig y i * (1 / S), β, ?_, hw3, ?_, ?_, ?_, ?_, ?_, ?_, ?_⟩
  · unfold dolphChebyshevWindow
    have hN0 : (N : ℝ) ≠ 0 := by
      have : N ≠ 0 := by omega
      exact_mod_cast this
    rw [hM]
    simp only [fdiv, facosh, if_neg hM0, if_neg ha0.ne', Out.ok_bind, if_pos ha1', hNw, if_neg hN0, dolph_grid e N (by omega), ← hβ, ← hl]
    rw [ifftReal, cassert_true (Or.inl hll), Out.ok_bind, Out.pure_def, Out.ok_bind, e1, Out.ok_bind, hc1, e2, Out.ok_bind, e3, Out.ok_bind, hc2, e4,
      Out.ok_bind, if_neg hS.ne', Out.ok_bind, e5]
  · rw [hNw]
    exact dolph_palindrome N (by omega) _ _ hrw
  · intro i hi
    have hmem : sig y i ∈ y := List.mem_of_getElem? (sig_some y (by omega))
    rw [abs_mul, abs_of_pos (show 0 < 1 / S by positivity), mul_one_div]
    exact (div_le_one hS).2 (hle _ hmem)
  · obtain ⟨i, hi, hia⟩ := List.mem_iff_getElem.1 ham
    refine ⟨i, by omega, ?_⟩
    have : sig y i = a := by rw [sig, List.getD_eq_getElem?_getD, List.getElem?_eq_getElem hi, hia]; rfl
    simp only [this]
    rw [abs_mul, abs_of_pos (show 0 < 1 / S by positivity), haS]
    field_simp
  · rw [hNw, hsw]
    positivity
  · rw [hβ]
    exact Real.one_le_cosh _
  · rw [hNw]
    exact hTβ
  · intro v
    rw [hNw, hrw, hsw]
    congr 1
    field_simp

/-- **C68**, side lobes: there is an edge such that from it to the Nyquist frequency the response never exceeds the attenuation
times the response at zero, and below it the response is never less than that. -/
theorem C68_sidelobes :
    ∃ m w edge, dolphChebyshevWindow e c mem out att = .ok m ∧ Writes mem m out w ∧ 0 ≤ edge ∧ edge ≤ Real.pi ∧
      firResponse out.size w 0 ≠ 0 ∧
      (∀ v, edge ≤ v → v ≤ Real.pi → ‖firResponse out.size w v‖ ≤ att * ‖firResponse out.size w 0‖) ∧
      (∀ v, 0 ≤ v → v ≤ edge → att * ‖firResponse out.size w 0‖ ≤ ‖firResponse out.size w v‖) ∧
      ‖firResponse out.size w edge‖ = att * ‖firResponse out.size w 0‖ := by
  obtain ⟨m, w, β, e1, h1, -, -, -, hs, hβ, hT, hr⟩ := C68_dolphChebyshev e c hc mem out hm h2 att ha0 ha1
  have hβ0 : 0 < β := by linarith
  have hnorm : ∀ v, ‖firResponse out.size w v‖ = (∑ i ∈ range out.size, w i) * att *
      |(Chebyshev.T ℝ ((out.size - 1 : ℕ) : ℤ)).eval (β * Real.cos (v / 2))| := by
    intro v
    have h := congrArg norm (hr v)
    rw [centredResponse, norm_mul, Complex.norm_exp_ofReal_mul_I, one_mul, Complex.norm_real, Real.norm_eq_abs, abs_mul,
      abs_of_pos (mul_pos hs ha0)] at h
    exact h
  have h0 : ‖firResponse out.size w 0‖ = ∑ i ∈ range out.size, w i := by
    rw [hnorm]
    simp only [zero_div, Real.cos_zero, mul_one, hT]
    rw [abs_of_pos (by positivity)]
    field_simp
  have hb1 : 1 / β ≤ 1 := (div_le_one hβ0).2 hβ
  have hb0 : 0 ≤ 1 / β := by positivity
  have hcos : Real.cos (2 * Real.arccos (1 / β) / 2) = 1 / β := by
    rw [show 2 * Real.arccos (1 / β) / 2 = Real.arccos (1 / β) by ring, Real.cos_arccos (by linarith) hb1]
  have hedge : 2 * Real.arccos (1 / β) ≤ Real.pi := by
    have := Real.arccos_le_pi_div_two.2 hb0
    linarith
  refine ⟨m, w, 2 * Real.arccos (1 / β), e1, h1, by have := Real.arccos_nonneg (1 / β); linarith, hedge, ?_, ?_, ?_, ?_⟩
  · intro h
    rw [h, norm_zero] at h0
    linarith
  · intro v hv hvp
    rw [hnorm, h0, mul_comm att]
    have hp : 0 < (∑ i ∈ range out.size, w i) * att := by positivity
    have hc1 : Real.cos (v / 2) ≤ 1 / β := by
      rw [← hcos]
      have := Real.arccos_nonneg (1 / β)
      exact Real.cos_le_cos_of_nonneg_of_le_pi (by linarith) (by linarith [Real.pi_pos]) (by linarith)
    have hc0 : 0 ≤ Real.cos (v / 2) := by
      have := Real.arccos_nonneg (1 / β)
      exact Real.cos_nonneg_of_neg_pi_div_two_le_of_le (by linarith [Real.pi_pos]) (by linarith)
    have hle : |β * Real.cos (v / 2)| ≤ 1 := by
      rw [abs_of_nonneg (by positivity)]
      calc β * Real.cos (v / 2) ≤ β * (1 / β) := by gcongr
        _ = 1 := by field_simp
    have := Chebyshev.abs_eval_T_real_le_one ((out.size - 1 : ℕ) : ℤ) hle
    calc _ ≤ (∑ i ∈ range out.size, w i) * att * 1 := by gcongr
      _ = _ := mul_one _
  · intro v hv hve
    rw [h0, hnorm, mul_comm att]
    have hp : 0 < (∑ i ∈ range out.size, w i) * att := by positivity
    have hc1 : 1 / β ≤ Real.cos (v / 2) := by
      rw [← hcos]
      exact Real.cos_le_cos_of_nonneg_of_le_pi (by linarith) (by linarith) (by linarith)
    have hge : 1 ≤ β * Real.cos (v / 2) := by
      calc 1 = β * (1 / β) := by field_simp
        _ ≤ _ := by gcongr
    have := Chebyshev.one_le_eval_T_real ((out.size - 1 : ℕ) : ℤ) hge
    calc _ = (∑ i ∈ range out.size, w i) * att * 1 := (mul_one _).symm
      _ ≤ _ := by gcongr; exact le_trans this (le_abs_self _)
  · rw [hnorm, h0, mul_comm att, hcos]
    rw [show β * (1 / β) = 1 by field_simp]
    simp

end

/-- a window of five samples with 40 dB of attenuation -/
example : ∃ m w, dolphChebyshevWindow ⟨true, true, 4⟩ ⟨true, 4, fun op init l => l.foldl op init, fun op init l => l.foldl op init⟩
    [0, 0, 0, 0, 0, 7] ⟨0, 5⟩ (1 / 100) = .ok m ∧ Writes [0, 0, 0, 0, 0, 7] m ⟨0, 5⟩ w ∧ Palindrome 5 w := by
  obtain ⟨m, w, β, h1, h2, h3, -⟩ := C68_dolphChebyshev ⟨true, true, 4⟩ _ Kern.exists_ok [0, 0, 0, 0, 0, 7] ⟨0, 5⟩
    (by simp [Span.Within]) (by norm_num) (1 / 100) (by norm_num) (by norm_num)
  exact ⟨m, w, h1, h2, h3⟩

/-- **C68**, what the library gets wrong: the window of one sample divides by zero (every other window of one sample is one), for
every attenuation. -/
theorem C68_one_wrong (e : Exec) (c : Kern) (mem : List ℝ) (out : Span) (h1 : out.size = 1) (att : ℝ) :
    dolphChebyshevWindow e c mem out att = .ub := by
  unfold dolphChebyshevWindow
  simp [h1, usub, fdiv]

/-- **C68**: an attenuation of zero or more than one has no window: the hyperbolic arc cosine is not a number. -/
theorem C68_attenuation_range (e : Exec) (c : Kern) (mem : List ℝ) (out : Span) (att : ℝ) (h : att = 0 ∨ 1 < att ∨ att < 0) :
    dolphChebyshevWindow e c mem out att = .ub := by
  unfold dolphChebyshevWindow
  have hnot : att ≠ 0 → ¬ 1 ≤ 1 / att := by
    intro h0 hh
    rcases h with h | h | h
    · exact h0 h
    · rw [le_div_iff₀ (by linarith)] at hh
      linarith
    · have : 1 / att < 0 := div_neg_of_pos_of_neg one_pos h
      linarith
  simp only [fdiv, facosh]
  by_cases hq : ((usub out.size 1 : ℕ) : ℝ) = 0
  · rw [if_pos hq]
    rfl
  · rw [if_neg hq, Out.ok_bind]
    by_cases ha : att = 0
    · rw [if_pos ha]
      rfl
    · rw [if_neg ha, Out.ok_bind, if_neg (hnot ha)]
      rfl

end Verif
