import Verif.Lemmas.JacobiReal
import Mathlib.Algebra.Polynomial.Derivative
import Mathlib.Analysis.Calculus.Deriv.Polynomial
import Mathlib.Algebra.Polynomial.Roots
import Mathlib.Algebra.Polynomial.FieldDivision
import Mathlib.RingTheory.Coprime.Lemmas
import Mathlib.Algebra.Polynomial.BigOperators

set_option linter.unusedSimpArgs false
set_option linter.unusedSectionVars false

/-! # Jacobi's transformation of order n: the polynomials of the elliptic rational function -/

namespace Verif
open Polynomial Finset

/-! ### products over symmetric sequences -/

theorem prod_even_odd {M : Type*} [CommMonoid M] (h : ℕ → M) (n : ℕ) :
    (∏ j ∈ range n, h (2 * j)) * ∏ j ∈ range n, h (2 * j + 1) = ∏ i ∈ range (2 * n), h i := by
  induction n with
  | zero => simp
  | succ n ih =>
    rw [prod_range_succ, prod_range_succ, show 2 * (n + 1) = 2 * n + 1 + 1 by ring, prod_range_succ, prod_range_succ, ← ih]
    simp only [mul_comm, mul_left_comm, mul_assoc]

theorem prod_sym_tail {M : Type*} [CommMonoid M] (h : ℕ → M) (m r : ℕ) (hs : ∀ j < m, h (m + r + j) = h (m - 1 - j)) :
    ∏ j ∈ range (m + r + m), h j = (∏ j ∈ range m, h j) ^ 2 * ∏ j ∈ range r, h (m + j) := by
  rw [prod_range_add, prod_range_add, sq]
  have : ∏ x ∈ range m, h (m + r + x) = ∏ x ∈ range m, h x := by
    rw [← prod_range_reflect h m]
    exact prod_congr rfl fun j hj => hs j (mem_range.mp hj)
  rw [this]
  simp only [mul_comm, mul_left_comm, mul_assoc]

/-- odd indices of a symmetric sequence -/
theorem prod_odd_sym {M : Type*} [CommMonoid M] (h : ℕ → M) (n : ℕ) (hs : ∀ i ≤ 2 * n, h (2 * n - i) = h i) :
    ∏ j ∈ range n, h (2 * j + 1) = (∏ j ∈ range (n / 2), h (2 * j + 1)) ^ 2 * h n ^ (n % 2) := by
  have key := prod_sym_tail (fun j => h (2 * j + 1)) (n / 2) (n % 2) (fun j hj => by
    rw [← hs (2 * (n / 2 - 1 - j) + 1) (by omega)]
    congr 1; omega)
  rw [show n / 2 + n % 2 + n / 2 = n by omega] at key
  rw [key]
  congr 1
  rcases Nat.mod_two_eq_zero_or_one n with h0 | h0
  · rw [h0]; simp
  · rw [h0]; simp only [prod_range_one, pow_one]
    congr 1; omega

/-- even indices of a symmetric sequence -/
theorem prod_even_sym {M : Type*} [CommMonoid M] (h : ℕ → M) (n : ℕ) (hn : 1 ≤ n) (hs : ∀ i ≤ 2 * n, h (2 * n - i) = h i) :
    ∏ j ∈ range n, h (2 * j) = h 0 * ((∏ j ∈ range ((n - 1) / 2), h (2 * j + 2)) ^ 2 * h n ^ ((n - 1) % 2)) := by
  obtain ⟨m, rfl⟩ : ∃ m, n = m + 1 := ⟨n - 1, by omega⟩
  rw [prod_range_succ', mul_comm, show 2 * 0 = 0 from rfl]
  congr 1
  have key := prod_sym_tail (fun j => h (2 * j + 2)) (m / 2) (m % 2) (fun j hj => by
    rw [← hs (2 * (m / 2 - 1 - j) + 2) (by omega)]
    congr 1; omega)
  rw [show m / 2 + m % 2 + m / 2 = m by omega] at key
  simp only [Nat.add_sub_cancel]
  rw [show (fun j => h (2 * (j + 1))) = fun j => h (2 * j + 2) from funext fun j => by congr 1, key]
  congr 1
  rcases Nat.mod_two_eq_zero_or_one m with h0 | h0
  · rw [h0]; simp
  · rw [h0]; simp only [prod_range_one, pow_one]
    congr 1; omega

/-- all indices of a symmetric sequence -/
theorem prod_all_sym {M : Type*} [CommMonoid M] (h : ℕ → M) (n : ℕ) (hn : 1 ≤ n) (hs : ∀ i ≤ 2 * n, h (2 * n - i) = h i) :
    ∏ i ∈ range (2 * n), h i = h 0 * ((∏ i ∈ range (n - 1), h (i + 1)) ^ 2 * h n) := by
  obtain ⟨m, rfl⟩ : ∃ m, n = m + 1 := ⟨n - 1, by omega⟩
  rw [show 2 * (m + 1) = (m + 1 + m) + 1 by ring, prod_range_succ', mul_comm]
  congr 1
  have key := prod_sym_tail (fun j => h (j + 1)) m 1 (fun j hj => by
    rw [← hs (m - 1 - j + 1) (by omega)]
    congr 1; omega)
  rw [key]
  simp

/-! ### double roots -/

theorem sq_dvd_of_root {P : ℝ[X]} {a : ℝ} (h0 : P.eval a = 0) (h1 : (derivative P).eval a = 0) : (X - C a) ^ 2 ∣ P := by
  obtain ⟨Q, hQ⟩ := dvd_iff_isRoot.mpr h0
  have : Q.eval a = 0 := by
    rw [hQ] at h1
    simpa using h1
  obtain ⟨R, hR⟩ := dvd_iff_isRoot.mpr this
  exact ⟨R, by rw [hQ, hR]; ring⟩

theorem double_root {P L : ℝ[X]} {a : ℝ} (h : L ^ 2 ∣ P) (hL : L.eval a = 0) : P.eval a = 0 ∧ (derivative P).eval a = 0 := by
  obtain ⟨R, hR⟩ := h
  constructor
  · rw [hR]; simp [hL]
  · rw [hR]; simp [derivative_pow, hL]

/-! ### the polynomials -/

/-- the squares of sn at the multiples of `K / n` -/
noncomputable def grid (k : ℝ) (n i : ℕ) : ℝ := jsn k (i * legendreK k / n) ^ 2

/-- the polynomial with the roots `a 0, …, a (n - 1)` -/
noncomputable def numP (a : ℕ → ℝ) (n : ℕ) : ℝ[X] := ∏ j ∈ range n, (X - C (a j))
/-- the polynomial with the roots `1 / (k² a 0), …` -/
noncomputable def denP (k : ℝ) (a : ℕ → ℝ) (n : ℕ) : ℝ[X] := ∏ j ∈ range n, (1 - C (k ^ 2 * a j) * X)

theorem numP_eval (a : ℕ → ℝ) (n : ℕ) (x : ℝ) : (numP a n).eval x = ∏ j ∈ range n, (x - a j) := by
  simp [numP, eval_prod]
theorem denP_eval (k : ℝ) (a : ℕ → ℝ) (n : ℕ) (x : ℝ) : (denP k a n).eval x = ∏ j ∈ range n, (1 - k ^ 2 * a j * x) := by
  simp [denP, eval_prod]

theorem numP_monic (a : ℕ → ℝ) (n : ℕ) : (numP a n).Monic := monic_prod_of_monic _ _ fun _ _ => monic_X_sub_C _
theorem numP_natDegree (a : ℕ → ℝ) (n : ℕ) : (numP a n).natDegree = n := by
  rw [numP, natDegree_prod_of_monic _ _ fun _ _ => monic_X_sub_C _]; simp

theorem numP_invert {k : ℝ} (hk : k ≠ 0) (a : ℕ → ℝ) (n : ℕ) {x : ℝ} (hx : x ≠ 0) :
    (k ^ 2 * x) ^ n * (numP a n).eval (1 / (k ^ 2 * x)) = (denP k a n).eval x := by
  rw [numP_eval, denP_eval, ← card_range n, ← prod_const, card_range, ← prod_mul_distrib]
  exact prod_congr rfl fun j _ => by field_simp

theorem denP_invert {k : ℝ} (hk : k ≠ 0) (a : ℕ → ℝ) (n : ℕ) {x : ℝ} (hx : x ≠ 0) :
    x ^ n * (denP k a n).eval (1 / (k ^ 2 * x)) = (numP a n).eval x := by
  rw [numP_eval, denP_eval, ← card_range n, ← prod_const, card_range, ← prod_mul_distrib]
  exact prod_congr rfl fun j _ => by field_simp

section
variable {k : ℝ} (hk : k ^ 2 < 1) {n : ℕ} (hn : 1 ≤ n)
include hk hn

theorem grid_zero : grid k n 0 = 0 := by rw [grid]; simp [jsn_zero hk]
theorem grid_n : grid k n n = 1 := by
  have : (n : ℝ) ≠ 0 := by exact_mod_cast (by omega : n ≠ 0)
  rw [grid, mul_div_assoc, mul_div_cancel₀ _ this, jsn_K hk]; norm_num

theorem grid_sym {i : ℕ} (hi : i ≤ 2 * n) : grid k n (2 * n - i) = grid k n i := by
  have : (n : ℝ) ≠ 0 := by exact_mod_cast (by omega : n ≠ 0)
  rw [grid, grid, Nat.cast_sub hi]
  have : ((2 * n : ℕ) - (i : ℝ)) * legendreK k / n = 2 * legendreK k - i * legendreK k / n := by push_cast; field_simp
  rw [this, jsn_sub_K hk]

theorem grid_lt {i j : ℕ} (hij : i < j) (hj : j ≤ n) : grid k n i < grid k n j := by
  have hn0 : (0 : ℝ) < n := by exact_mod_cast (by omega : 0 < n)
  have hK := legendreK_pos hk
  have h1 : (i : ℝ) * legendreK k / n < j * legendreK k / n := by
    have : (i : ℝ) < j := by exact_mod_cast hij
    gcongr
  have h2 : (j : ℝ) * legendreK k / n ≤ legendreK k := by
    rw [div_le_iff₀ hn0, mul_comm]
    have : (j : ℝ) ≤ n := by exact_mod_cast hj
    gcongr
  have h0 : 0 ≤ (i : ℝ) * legendreK k / n := by positivity
  have h3 := jsn_lt hk h0 h1 h2
  have h4 : 0 ≤ jsn k ((i : ℝ) * legendreK k / n) := by
    rcases h0.eq_or_lt with h | h
    · rw [← h, jsn_zero hk]
    · have := jsn_lt hk le_rfl h (h1.le.trans h2)
      rw [jsn_zero hk] at this
      exact this.le
  rw [grid, grid]
  exact pow_lt_pow_left₀ h3 h4 (by norm_num)

theorem grid_le_one (i : ℕ) : grid k n i ≤ 1 := jsn_sq_le hk _
theorem grid_nonneg (i : ℕ) : 0 ≤ grid k n i := sq_nonneg _

theorem egrid_mem {i : ℕ} (h0 : 0 < i) (h1 : i < n) : 0 < grid k n i ∧ grid k n i < 1 := by
  constructor
  · have := grid_lt hk hn h0 h1.le; rwa [grid_zero hk hn] at this
  · have := grid_lt hk hn h1 le_rfl; rwa [grid_n hk hn] at this

theorem grid_pos {i : ℕ} (h0 : 0 < i) (h1 : i < 2 * n) : 0 < grid k n i := by
  rcases lt_trichotomy i n with h | h | h
  · exact (egrid_mem hk hn h0 h).1
  · rw [h, grid_n hk hn]; norm_num
  · rw [← grid_sym hk hn h1.le]
    exact (egrid_mem hk hn (by omega) (by omega)).1

/-- Jacobi's product -/
noncomputable def jprod (k : ℝ) (n : ℕ) (u : ℝ) : ℝ :=
  ∏ j ∈ range n, (jsn k (u + (2 * j : ℕ) * legendreK k / n) * jsn k (u - (2 * j : ℕ) * legendreK k / n))

theorem jprod_eq (u : ℝ) : jprod k n u =
    (numP (fun j => grid k n (2 * j)) n).eval (jsn k u ^ 2) / (denP k (fun j => grid k n (2 * j)) n).eval (jsn k u ^ 2) := by
  rw [jprod, numP_eval, denP_eval, ← prod_div_distrib]
  exact prod_congr rfl fun j _ => by rw [jsn_mul hk]; rfl

theorem denP_pos (a : ℕ → ℝ) (ha : ∀ j, 0 ≤ a j ∧ a j ≤ 1) (m : ℕ) {x : ℝ} (hx : k ^ 2 * x < 1) : 0 < (denP k a m).eval x := by
  rw [denP_eval]
  refine prod_pos fun j _ => ?_
  obtain ⟨h0, h1⟩ := ha j
  rcases le_or_gt 0 x with hx0 | hx0
  · have : k ^ 2 * x * a j ≤ k ^ 2 * x * 1 := mul_le_mul_of_nonneg_left h1 (by positivity)
    nlinarith
  · have : k ^ 2 * a j * x ≤ 0 := mul_nonpos_of_nonneg_of_nonpos (by positivity) hx0.le
    linarith

theorem jprod_neg (u : ℝ) : jprod k n (-u) = jprod k n u := by rw [jprod_eq hk hn, jprod_eq hk hn, jsn_neg hk, neg_sq]

theorem jprod_period (u : ℝ) : jprod k n (u + 2 * legendreK k / n) = jprod k n u := by
  obtain ⟨m, rfl⟩ : ∃ m, n = m + 1 := ⟨n - 1, by omega⟩
  have hn0 : ((m + 1 : ℕ) : ℝ) ≠ 0 := by positivity
  rw [jprod, jprod, prod_mul_distrib, prod_mul_distrib, prod_range_succ, prod_range_succ' (fun j : ℕ => jsn k (u + (2 * j : ℕ) * legendreK k / (m + 1 : ℕ))),
    prod_range_succ' (fun j : ℕ => jsn k (u + 2 * legendreK k / (m + 1 : ℕ) - (2 * j : ℕ) * legendreK k / (m + 1 : ℕ))),
    prod_range_succ (fun j : ℕ => jsn k (u - (2 * j : ℕ) * legendreK k / (m + 1 : ℕ)))]
  have e1 : ∀ j : ℕ, u + 2 * legendreK k / (m + 1 : ℕ) + (2 * j : ℕ) * legendreK k / (m + 1 : ℕ) = u + (2 * (j + 1) : ℕ) * legendreK k / (m + 1 : ℕ) := by
    intro j; push_cast; ring
  have e2 : ∀ j : ℕ, u + 2 * legendreK k / (m + 1 : ℕ) - (2 * (j + 1) : ℕ) * legendreK k / (m + 1 : ℕ) = u - (2 * j : ℕ) * legendreK k / (m + 1 : ℕ) := by
    intro j; push_cast; ring
  simp only [e1, e2]
  have f1 : u + (2 * (m + 1) : ℕ) * legendreK k / (m + 1 : ℕ) = u + 2 * legendreK k := by
    rw [Nat.cast_mul, mul_right_comm, mul_div_assoc, div_self hn0]; push_cast; ring
  have f2 : u + 2 * legendreK k / (m + 1 : ℕ) - (2 * 0 : ℕ) * legendreK k / (m + 1 : ℕ) = (u - (2 * m : ℕ) * legendreK k / (m + 1 : ℕ)) + 2 * legendreK k := by
    push_cast at hn0 ⊢
    field_simp
    ring
  rw [f1, f2, jsn_add_period hk, jsn_add_period hk]
  have f3 : u + (2 * 0 : ℕ) * legendreK k / (m + 1 : ℕ) = u := by push_cast; ring
  rw [f3]
  ring

theorem jprod_period_nat (u : ℝ) (i : ℕ) : jprod k n (u + i * (2 * legendreK k / n)) = jprod k n u := by
  induction i with
  | zero => simp
  | succ i ih =>
    rw [show u + ((i + 1 : ℕ) : ℝ) * (2 * legendreK k / n) = (u + i * (2 * legendreK k / n)) + 2 * legendreK k / n by push_cast; ring,
      jprod_period hk hn, ih]

theorem jprod_odd (i : ℕ) : jprod k n ((2 * i + 1 : ℕ) * legendreK k / n) = jprod k n (legendreK k / n) := by
  rw [← jprod_period_nat hk hn (legendreK k / n) i]
  congr 1; push_cast; ring

theorem jprod_mirror (i : ℕ) (w : ℝ) : jprod k n (2 * ((2 * i + 1 : ℕ) * legendreK k / n) - w) = jprod k n w := by
  rw [← jprod_neg hk hn w, ← jprod_period_nat hk hn (-w) (2 * i + 1)]
  congr 1; push_cast; ring

theorem jprod_differentiable (u : ℝ) : DifferentiableAt ℝ (jprod k n) u := by
  unfold jprod
  apply DifferentiableAt.fun_finsetProd
  intro j _
  have h : ∀ v, DifferentiableAt ℝ (jsn k) v := fun v => (jsn_deriv hk v).differentiableAt
  apply DifferentiableAt.mul
  · exact (h _).comp u (by fun_prop)
  · exact (h _).comp u (by fun_prop)

theorem jprod_deriv_odd (i : ℕ) : HasDerivAt (jprod k n) 0 ((2 * i + 1 : ℕ) * legendreK k / n) := by
  obtain ⟨a, ha⟩ : ∃ a, a = (2 * i + 1 : ℕ) * legendreK k / n := ⟨_, rfl⟩
  rw [← ha]
  have h1 := (jprod_differentiable hk hn a).hasDerivAt
  have hsub : HasDerivAt (fun t : ℝ => 2 * a - t) (-1) a := by simpa using (hasDerivAt_id a).const_sub (2 * a)
  have h2 := HasDerivAt.comp (h₂ := jprod k n) (h := fun t : ℝ => 2 * a - t) (h₂' := deriv (jprod k n) a) a (by rw [show 2 * a - a = a by ring]; exact h1) hsub
  have h3 : jprod k n ∘ (fun t : ℝ => 2 * a - t) = jprod k n := by
    funext w
    simp only [Function.comp_apply, ha]
    exact jprod_mirror hk hn i w
  rw [h3] at h2
  have h4 := h1.unique h2
  have : deriv (jprod k n) a = 0 := by linarith
  rwa [this] at h1


/-! ### the two polynomial identities -/

/-- even and odd numerators and denominators -/
noncomputable abbrev nE (k : ℝ) (n : ℕ) : ℝ[X] := numP (fun j => grid k n (2 * j)) n
noncomputable abbrev dE (k : ℝ) (n : ℕ) : ℝ[X] := denP k (fun j => grid k n (2 * j)) n
noncomputable abbrev nO (k : ℝ) (n : ℕ) : ℝ[X] := numP (fun j => grid k n (2 * j + 1)) n
noncomputable abbrev dO (k : ℝ) (n : ℕ) : ℝ[X] := denP k (fun j => grid k n (2 * j + 1)) n

theorem grid_sym_all {M : Type*} (f : ℝ → M) : ∀ i ≤ 2 * n, f (grid k n (2 * n - i)) = f (grid k n i) :=
  fun _ hi => congrArg f (grid_sym hk hn hi)

theorem nO_split : nO k n = (∏ j ∈ range (n / 2), (X - C (grid k n (2 * j + 1)))) ^ 2 * (X - C 1) ^ (n % 2) := by
  have := prod_odd_sym (fun i => (X - C (grid k n i) : ℝ[X])) n (grid_sym_all hk hn fun x => X - C x)
  rw [grid_n hk hn] at this
  exact this

theorem nE_split : nE k n = X * ((∏ j ∈ range ((n - 1) / 2), (X - C (grid k n (2 * j + 2)))) ^ 2 * (X - C 1) ^ ((n - 1) % 2)) := by
  have := prod_even_sym (fun i => (X - C (grid k n i) : ℝ[X])) n hn (grid_sym_all hk hn fun x => X - C x)
  rw [grid_n hk hn, grid_zero hk hn, C_0, sub_zero] at this
  exact this

theorem dO_split : dO k n = (∏ j ∈ range (n / 2), (1 - C (k ^ 2 * grid k n (2 * j + 1)) * X)) ^ 2 * (1 - C (k ^ 2) * X) ^ (n % 2) := by
  have := prod_odd_sym (fun i => (1 - C (k ^ 2 * grid k n i) * X : ℝ[X])) n (grid_sym_all hk hn fun x => 1 - C (k ^ 2 * x) * X)
  rw [grid_n hk hn, mul_one] at this
  exact this

theorem dE_split : dE k n = (∏ j ∈ range ((n - 1) / 2), (1 - C (k ^ 2 * grid k n (2 * j + 2)) * X)) ^ 2 * (1 - C (k ^ 2) * X) ^ ((n - 1) % 2) := by
  have := prod_even_sym (fun i => (1 - C (k ^ 2 * grid k n i) * X : ℝ[X])) n hn (grid_sym_all hk hn fun x => 1 - C (k ^ 2 * x) * X)
  rw [grid_n hk hn, grid_zero hk hn, mul_one, mul_zero, C_0, zero_mul, sub_zero, one_mul] at this
  exact this

theorem denP_natDegree_le (a : ℕ → ℝ) (m : ℕ) : (denP k a m).natDegree ≤ m := by
  rw [denP]
  refine (natDegree_prod_le _ _).trans ?_
  calc ∑ i ∈ range m, (1 - C (k ^ 2 * a i) * X : ℝ[X]).natDegree ≤ ∑ _i ∈ range m, 1 := by
        refine sum_le_sum fun i _ => ?_
        refine (natDegree_sub_le _ _).trans ?_
        rw [natDegree_one]
        exact max_le (by omega) ((natDegree_C_mul_le _ _).trans natDegree_X_le)
    _ = m := by simp

theorem dE_natDegree_le : (dE k n).natDegree ≤ n - 1 := by
  obtain ⟨m, rfl⟩ : ∃ m, n = m + 1 := ⟨n - 1, by omega⟩
  have : dE k (m + 1) = denP k (fun j => grid k (m + 1) (2 * (j + 1))) m := by
    simp only [dE, denP]
    rw [prod_range_succ']
    simp [grid_zero hk hn]
  rw [this]
  exact denP_natDegree_le hk hn _ m

/-- the constant in the relation between the two numerators -/
noncomputable def gridA (k : ℝ) (n : ℕ) : ℝ := ∏ j ∈ range n, grid k n (2 * j + 1)

theorem gridA_pos : 0 < gridA k n := prod_pos fun j hj => grid_pos hk hn (by omega) (by have := mem_range.mp hj; omega)
theorem gridA_le : gridA k n ≤ 1 := prod_le_one (fun _ _ => grid_nonneg hk hn _) fun _ _ => grid_le_one hk hn _

theorem x_sub_coprime {a b : ℝ} (h : a ≠ b) : IsCoprime (X - C a : ℝ[X]) (X - C b) :=
  isCoprime_X_sub_C_of_isUnit_sub (sub_ne_zero.mpr h).isUnit

theorem grid_inj {i j : ℕ} (hi : i ≤ n) (hj : j ≤ n) (h : grid k n i = grid k n j) : i = j := by
  by_contra hne
  rcases lt_or_gt_of_ne hne with h' | h'
  · have := grid_lt hk hn h' hj; linarith
  · have := grid_lt hk hn h' hi; linarith

theorem dE_pos_at (u : ℝ) : 0 < (dE k n).eval (jsn k u ^ 2) :=
  denP_pos hk hn _ (fun _ => ⟨grid_nonneg hk hn _, grid_le_one hk hn _⟩) n (by
    have := jsn_sq_le hk u
    have h2 : k ^ 2 * jsn k u ^ 2 ≤ k ^ 2 * 1 := mul_le_mul_of_nonneg_left this (sq_nonneg k)
    linarith)

/-- The numerators differ by a multiple of the denominator. -/
theorem nO_eq : nO k n = nE k n + C ((-1) ^ n * gridA k n) * dE k n := by
  obtain ⟨G, hG⟩ : ∃ G, G = jprod k n (legendreK k / n) := ⟨_, rfl⟩
  have hn0 : (0 : ℝ) < n := by exact_mod_cast (by omega : 0 < n)
  obtain ⟨P, hP⟩ : ∃ P, P = nE k n + C (-G) * dE k n := ⟨_, rfl⟩
  have hPu : ∀ u, P.eval (jsn k u ^ 2) = (dE k n).eval (jsn k u ^ 2) * (jprod k n u - G) := by
    intro u
    rw [hP, jprod_eq hk hn, eval_add, eval_mul, eval_C, mul_sub, mul_div_cancel₀ _ (dE_pos_at hk hn u).ne']
    ring
  have hroot : ∀ i, P.eval (grid k n (2 * i + 1)) = 0 := by
    intro i
    rw [grid, hPu, jprod_odd hk hn, hG, sub_self, mul_zero]
  have hdouble : ∀ i, 2 * i + 1 < n → (X - C (grid k n (2 * i + 1))) ^ 2 ∣ P := by
    intro i hi
    refine sq_dvd_of_root (hroot i) ?_
    obtain ⟨a, ha⟩ : ∃ a, a = (2 * i + 1 : ℕ) * legendreK k / n := ⟨_, rfl⟩
    have hX : HasDerivAt (fun u => jsn k u ^ 2) (2 * jsn k a * (jcn k a * jdn k a)) a := by
      refine ((jsn_deriv hk a).pow 2).congr_deriv ?_
      simp
    have h1 : HasDerivAt (fun u => P.eval (jsn k u ^ 2)) ((derivative P).eval (jsn k a ^ 2) * (2 * jsn k a * (jcn k a * jdn k a))) a :=
      HasDerivAt.comp (h₂ := fun x => P.eval x) (h := fun u => jsn k u ^ 2) a (P.hasDerivAt _) hX
    have h2 : HasDerivAt (fun u => (dE k n).eval (jsn k u ^ 2)) ((derivative (dE k n)).eval (jsn k a ^ 2) * (2 * jsn k a * (jcn k a * jdn k a))) a :=
      HasDerivAt.comp (h₂ := fun x => (dE k n).eval x) (h := fun u => jsn k u ^ 2) a ((dE k n).hasDerivAt _) hX
    have hd := jprod_deriv_odd hk hn i
    have hval := jprod_odd hk hn i
    rw [← ha] at hd hval
    have h3 := h2.mul (hd.sub_const G)
    have h4 : (fun u => P.eval (jsn k u ^ 2)) = (fun u => (dE k n).eval (jsn k u ^ 2)) * (fun u => jprod k n u - G) := funext hPu
    rw [← h4] at h3
    have h5 := h1.unique h3
    rw [hval, ← hG, sub_self, mul_zero, mul_zero, add_zero] at h5
    have hne : 2 * jsn k a * (jcn k a * jdn k a) ≠ 0 := by
      have hK := legendreK_pos hk
      have ha0 : 0 < a := by rw [ha]; positivity
      have ha1 : a < legendreK k := by
        rw [ha, div_lt_iff₀ hn0, mul_comm (legendreK k)]
        have : ((2 * i + 1 : ℕ) : ℝ) < n := by exact_mod_cast hi
        gcongr
      have := jsn_lt hk le_rfl ha0 ha1.le
      rw [jsn_zero hk] at this
      have := jcn_pos hk ha0.le ha1
      have := jdn_pos hk a
      positivity
    rw [grid, ← ha]
    exact (mul_eq_zero.mp h5).resolve_right hne
  have hdvd : nO k n ∣ P := by
    rw [nO_split hk hn, ← prod_pow]
    apply IsCoprime.mul_dvd
    · apply IsCoprime.prod_left
      intro j hj
      have hj' := mem_range.mp hj
      apply IsCoprime.pow
      apply x_sub_coprime hk hn
      exact (egrid_mem hk hn (by omega) (by omega)).2.ne
    · apply Finset.prod_dvd_of_coprime
      · intro i hi j hj hij
        have hi' := mem_range.mp (mem_coe.mp hi)
        have hj' := mem_range.mp (mem_coe.mp hj)
        apply IsCoprime.pow
        apply x_sub_coprime hk hn
        intro h
        have := grid_inj hk hn (by omega) (by omega) h
        omega
      · intro j hj
        have hj' := mem_range.mp hj
        exact hdouble j (by omega)
    · rcases Nat.mod_two_eq_zero_or_one n with h | h
      · rw [h, pow_zero]; exact one_dvd _
      · rw [h, pow_one]
        apply dvd_iff_isRoot.mpr
        have := hroot (n / 2)
        rw [show 2 * (n / 2) + 1 = n by omega, grid_n hk hn] at this
        exact this
  have hdeg : (C (-G) * dE k n).degree < (nE k n).degree := by
    rw [degree_eq_natDegree (numP_monic _ _).ne_zero, numP_natDegree]
    refine lt_of_le_of_lt degree_le_natDegree ?_
    have := (natDegree_C_mul_le (-G) (dE k n)).trans (dE_natDegree_le hk hn)
    exact_mod_cast (by omega)
  have hmonic : P.Monic := by rw [hP]; exact (numP_monic _ _).add_of_left hdeg
  have hnat : P.natDegree = n := by
    rw [hP, natDegree_add_eq_left_of_degree_lt hdeg, numP_natDegree]
  have heq : P = nO k n := eq_of_monic_of_dvd_of_natDegree_le (numP_monic _ _) hmonic hdvd (by rw [hnat, numP_natDegree])
  have h0 : (nO k n).eval 0 = (-1) ^ n * gridA k n := by
    rw [numP_eval, gridA]
    simp only [zero_sub]
    rw [prod_neg, card_range]
  have h0' : P.eval 0 = -G := by
    rw [hP, eval_add, eval_mul, eval_C, numP_eval, denP_eval]
    rw [prod_eq_zero (i := 0) (mem_range.mpr (by omega))]
    · simp
    · simp [grid_zero hk hn]
  rw [heq, h0] at h0'
  rw [← heq, hP, h0']

/-- the same for the denominators -/
theorem dO_eq (hk0 : k ≠ 0) : dO k n = dE k n + C ((-1) ^ n * gridA k n * k ^ (2 * n)) * nE k n := by
  apply eq_of_infinite_eval_eq
  refine Set.Infinite.mono (s := {x : ℝ | x ≠ 0}) ?_ (Set.infinite_of_finite_compl (by simp))
  intro x hx
  change x ≠ 0 at hx
  change _ = _
  rw [← numP_invert hk0 _ _ hx, eval_add, eval_mul, eval_C]
  have := congrArg (fun P => P.eval (1 / (k ^ 2 * x))) (nO_eq hk hn)
  simp only [eval_add, eval_mul, eval_C] at this
  rw [this, mul_add, numP_invert hk0 _ _ hx, mul_pow, ← denP_invert hk0 _ _ hx, ← pow_mul]
  ring


/-! ### the derivative of the quotient -/

/-- the numerator of the derivative of the quotient -/
noncomputable abbrev wronskian (k : ℝ) (n : ℕ) : ℝ[X] := derivative (nE k n) * dE k n - nE k n * derivative (dE k n)

theorem wronskian_odd : wronskian k n = derivative (nO k n) * dE k n - nO k n * derivative (dE k n) := by
  rw [nO_eq hk hn, wronskian, derivative_add, derivative_C_mul]; ring

theorem wronskian_den (hk0 : k ≠ 0) : wronskian k n = derivative (nE k n) * dO k n - nE k n * derivative (dO k n) := by
  rw [dO_eq hk hn hk0, wronskian, derivative_add, derivative_C_mul]; ring

theorem num_square {i : ℕ} (h0 : 0 < i) (h1 : i < n) :
    (X - C (grid k n i)) ^ 2 ∣ (if i % 2 = 0 then nE k n else nO k n) := by
  split_ifs with h
  · rw [nE_split hk hn, ← prod_pow]
    apply Dvd.dvd.mul_left
    apply Dvd.dvd.mul_right
    have := dvd_prod_of_mem (fun j => (X - C (grid k n (2 * j + 2)) : ℝ[X]) ^ 2) (mem_range.mpr (by omega : i / 2 - 1 < (n - 1) / 2))
    rwa [show 2 * (i / 2 - 1) + 2 = i by omega] at this
  · rw [nO_split hk hn, ← prod_pow]
    apply Dvd.dvd.mul_right
    have := dvd_prod_of_mem (fun j => (X - C (grid k n (2 * j + 1)) : ℝ[X]) ^ 2) (mem_range.mpr (by omega : i / 2 < n / 2))
    rwa [show 2 * (i / 2) + 1 = i by omega] at this

theorem den_square {i : ℕ} (h0 : 0 < i) (h1 : i < n) :
    (1 - C (k ^ 2 * grid k n i) * X) ^ 2 ∣ (if i % 2 = 0 then dE k n else dO k n) := by
  split_ifs with h
  · rw [dE_split hk hn, ← prod_pow]
    apply Dvd.dvd.mul_right
    have := dvd_prod_of_mem (fun j => (1 - C (k ^ 2 * grid k n (2 * j + 2)) * X : ℝ[X]) ^ 2) (mem_range.mpr (by omega : i / 2 - 1 < (n - 1) / 2))
    rwa [show 2 * (i / 2 - 1) + 2 = i by omega] at this
  · rw [dO_split hk hn, ← prod_pow]
    apply Dvd.dvd.mul_right
    have := dvd_prod_of_mem (fun j => (1 - C (k ^ 2 * grid k n (2 * j + 1)) * X : ℝ[X]) ^ 2) (mem_range.mpr (by omega : i / 2 < n / 2))
    rwa [show 2 * (i / 2) + 1 = i by omega] at this

theorem wronskian_root {i : ℕ} (h0 : 0 < i) (h1 : i < n) : (wronskian k n).eval (grid k n i) = 0 := by
  have h := num_square hk hn h0 h1
  split_ifs at h
  · obtain ⟨a, b⟩ := double_root (a := grid k n i) h (by simp)
    rw [wronskian, eval_sub, eval_mul, eval_mul, a, b]; ring
  · obtain ⟨a, b⟩ := double_root (a := grid k n i) h (by simp)
    rw [wronskian_odd hk hn, eval_sub, eval_mul, eval_mul, a, b]; ring

theorem wronskian_root' (hk0 : k ≠ 0) {i : ℕ} (h0 : 0 < i) (h1 : i < n) : (wronskian k n).eval (1 / (k ^ 2 * grid k n i)) = 0 := by
  have h := den_square hk hn h0 h1
  have hg := (egrid_mem hk hn h0 h1).1
  have hz : (1 - C (k ^ 2 * grid k n i) * X : ℝ[X]).eval (1 / (k ^ 2 * grid k n i)) = 0 := by
    rw [eval_sub, eval_mul, eval_C, eval_X, eval_one, mul_one_div_cancel (by positivity), sub_self]
  split_ifs at h
  · obtain ⟨a, b⟩ := double_root (a := 1 / (k ^ 2 * grid k n i)) h hz
    rw [wronskian, eval_sub, eval_mul, eval_mul, a, b]; ring
  · obtain ⟨a, b⟩ := double_root (a := 1 / (k ^ 2 * grid k n i)) h hz
    rw [wronskian_den hk hn hk0, eval_sub, eval_mul, eval_mul, a, b]; ring

/-- Jacobi's multiplier -/
noncomputable def multiplier (k : ℝ) (n : ℕ) : ℝ := (∏ j ∈ range (n - 1), grid k n (2 * j + 2)) / ∏ i ∈ range (n - 1), grid k n (i + 1)

theorem multiplier_pos : 0 < multiplier k n := by
  apply div_pos
  · exact prod_pos fun j hj => grid_pos hk hn (by omega) (by have := mem_range.mp hj; omega)
  · exact prod_pos fun j hj => grid_pos hk hn (by omega) (by have := mem_range.mp hj; omega)

theorem wronskian_natDegree_le : (wronskian k n).natDegree ≤ 2 * (n - 1) := by
  have hE := dE_natDegree_le hk hn
  refine (natDegree_sub_le _ _).trans (max_le ?_ ?_)
  · refine natDegree_mul_le.trans ?_
    have := natDegree_derivative_le (nE k n)
    rw [numP_natDegree] at this
    omega
  · rcases hn.eq_or_lt with h | h
    · have : derivative (dE k n) = 0 := derivative_of_natDegree_zero (by omega)
      rw [this, mul_zero, natDegree_zero]; omega
    · refine natDegree_mul_le.trans ?_
      have := natDegree_derivative_le (dE k n)
      rw [numP_natDegree]
      omega

theorem wronskian_eval (hk0 : k ≠ 0) (x : ℝ) : (wronskian k n).eval x =
    multiplier k n * ∏ i ∈ range (n - 1), ((x - grid k n (i + 1)) * (1 - k ^ 2 * grid k n (i + 1) * x)) := by
  have hg : ∀ i ∈ range (n - 1), 0 < grid k n (i + 1) ∧ grid k n (i + 1) < 1 := fun i hi => by
    have := mem_range.mp hi
    exact egrid_mem hk hn (by omega) (by omega)
  have hk2 : 0 < k ^ 2 := by positivity
  have hinv : ∀ i ∈ range (n - 1), 1 < 1 / (k ^ 2 * grid k n (i + 1)) := fun i hi => by
    obtain ⟨h0, h1⟩ := hg i hi
    rw [lt_div_iff₀ (by positivity)]
    nlinarith
  obtain ⟨A, hA⟩ : ∃ A, A = numP (fun i => grid k n (i + 1)) (n - 1) := ⟨_, rfl⟩
  obtain ⟨B, hB⟩ : ∃ B, B = numP (fun i => 1 / (k ^ 2 * grid k n (i + 1))) (n - 1) := ⟨_, rfl⟩
  have hinj : ∀ i ∈ range (n - 1), ∀ j ∈ range (n - 1), grid k n (i + 1) = grid k n (j + 1) → i = j := fun i hi j hj h => by
    have := mem_range.mp hi
    have := mem_range.mp hj
    have := grid_inj hk hn (by omega) (by omega) h
    omega
  have hdvd : A * B ∣ wronskian k n := by
    apply IsCoprime.mul_dvd
    · rw [hA, hB]
      apply IsCoprime.prod_left
      intro i hi
      apply IsCoprime.prod_right
      intro j hj
      apply x_sub_coprime hk hn
      have := (hg i hi).2
      have := hinv j hj
      linarith
    · rw [hA]
      apply Finset.prod_dvd_of_coprime
      · intro i hi j hj hij
        apply x_sub_coprime hk hn
        exact fun h => hij (hinj i (mem_coe.mp hi) j (mem_coe.mp hj) h)
      · intro i hi
        have := mem_range.mp hi
        exact dvd_iff_isRoot.mpr (wronskian_root hk hn (by omega) (by omega))
    · rw [hB]
      apply Finset.prod_dvd_of_coprime
      · intro i hi j hj hij
        apply x_sub_coprime hk hn
        intro h
        apply hij
        apply hinj i (mem_coe.mp hi) j (mem_coe.mp hj)
        have h1 := (hg i (mem_coe.mp hi)).1
        have h2 := (hg j (mem_coe.mp hj)).1
        field_simp at h
        linarith
      · intro i hi
        have := mem_range.mp hi
        exact dvd_iff_isRoot.mpr (wronskian_root' hk hn hk0 (by omega) (by omega))
  obtain ⟨q, hq⟩ := hdvd
  have hAB : (A * B).Monic := by rw [hA, hB]; exact (numP_monic _ _).mul (numP_monic _ _)
  have hABd : (A * B).natDegree = 2 * (n - 1) := by
    rw [hA, hB, (numP_monic _ _).natDegree_mul (numP_monic _ _), numP_natDegree, numP_natDegree]; ring
  have hqd : q.natDegree = 0 := by
    have := wronskian_natDegree_le hk hn
    rw [hq] at this
    by_cases h : q = 0
    · rw [h, natDegree_zero]
    · rw [hAB.natDegree_mul' h, hABd] at this
      omega
  rw [eq_C_of_natDegree_eq_zero hqd] at hq
  obtain ⟨c, hc⟩ : ∃ c, c = q.coeff 0 := ⟨_, rfl⟩
  rw [← hc] at hq
  have hBx : ∀ x, B.eval x = (∏ i ∈ range (n - 1), (1 - k ^ 2 * grid k n (i + 1) * x)) * ∏ i ∈ range (n - 1), (-1 / (k ^ 2 * grid k n (i + 1))) := by
    intro x
    rw [hB, numP_eval, ← prod_mul_distrib]
    refine prod_congr rfl fun i hi => ?_
    have := (hg i hi).1
    field_simp
    ring
  have hAx : ∀ x, A.eval x = ∏ i ∈ range (n - 1), (x - grid k n (i + 1)) := fun x => by rw [hA, numP_eval]
  obtain ⟨d, hd⟩ : ∃ d, d = c * ∏ i ∈ range (n - 1), (-1 / (k ^ 2 * grid k n (i + 1))) := ⟨_, rfl⟩
  have hx : ∀ x, (wronskian k n).eval x = d * ∏ i ∈ range (n - 1), ((x - grid k n (i + 1)) * (1 - k ^ 2 * grid k n (i + 1) * x)) := by
    intro x
    rw [hq, eval_mul, eval_mul, eval_C, hAx, hBx, prod_mul_distrib, hd]
    ring
  rw [hx]
  congr 1
  have h0 := hx 0
  have hl : (wronskian k n).eval 0 = (-1) ^ (n - 1) * ∏ j ∈ range (n - 1), grid k n (2 * j + 2) := by
    obtain ⟨m, hm⟩ : ∃ m, n = m + 1 := ⟨n - 1, by omega⟩
    have hE : nE k n = X * numP (fun j => grid k n (2 * j + 2)) (n - 1) := by
      simp only [nE, numP]
      rw [show range n = range (n - 1 + 1) by rw [Nat.sub_add_cancel hn], prod_range_succ', mul_zero, grid_zero hk hn, C_0, sub_zero, mul_comm]
      rfl
    rw [wronskian, eval_sub, eval_mul, eval_mul]
    have hD : (dE k n).eval 0 = 1 := by rw [denP_eval]; simp
    have hN : (nE k n).eval 0 = 0 := by rw [hE]; simp
    rw [hD, hN, hE, derivative_mul, derivative_X, one_mul, eval_add, eval_mul, eval_X, zero_mul, add_zero, zero_mul, sub_zero, mul_one,
      numP_eval]
    simp only [zero_sub]
    rw [prod_neg, card_range]
  rw [hl] at h0
  simp only [zero_sub, mul_zero, sub_zero, mul_one] at h0
  rw [prod_neg, card_range] at h0
  have hs : ((-1 : ℝ) ^ (n - 1)) ≠ 0 := pow_ne_zero _ (by norm_num)
  have hp : 0 < ∏ i ∈ range (n - 1), grid k n (i + 1) := prod_pos fun i hi => (hg i hi).1
  rw [multiplier, eq_div_iff hp.ne']
  apply mul_left_cancel₀ hs
  linarith

/-- the differential equation -/
theorem wronskian_sq (hk0 : k ≠ 0) (x : ℝ) : (wronskian k n).eval x ^ 2 * (x * (1 - x) * (1 - k ^ 2 * x)) =
    -(multiplier k n ^ 2 * ((nE k n).eval x * (nO k n).eval x * (dE k n).eval x * (dO k n).eval x)) := by
  have h1 : (nE k n).eval x * (nO k n).eval x = x * ((∏ i ∈ range (n - 1), (x - grid k n (i + 1))) ^ 2 * (x - 1)) := by
    rw [numP_eval, numP_eval, prod_even_odd (fun i => x - grid k n i), prod_all_sym _ n hn (grid_sym_all hk hn fun y => x - y),
      grid_zero hk hn, grid_n hk hn, sub_zero]
  have h2 : (dE k n).eval x * (dO k n).eval x = (∏ i ∈ range (n - 1), (1 - k ^ 2 * grid k n (i + 1) * x)) ^ 2 * (1 - k ^ 2 * x) := by
    rw [denP_eval, denP_eval, prod_even_odd (fun i => 1 - k ^ 2 * grid k n i * x),
      prod_all_sym _ n hn (grid_sym_all hk hn fun y => 1 - k ^ 2 * y * x), grid_zero hk hn, grid_n hk hn]
    simp
  rw [wronskian_eval hk hn hk0, prod_mul_distrib, mul_assoc _ ((dE k n).eval x), h1, h2]
  ring

end
end Verif
