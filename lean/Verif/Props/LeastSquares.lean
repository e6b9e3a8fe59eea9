import Verif.Props.FirHilbert
import Verif.Props.Descs
import Verif.Lemmas.Convolution
import Mathlib.Analysis.InnerProductSpace.PiL2
import Mathlib.Analysis.InnerProductSpace.Projection.Minimal
import Mathlib.Topology.Algebra.Module.FiniteDimension

/-!
# C51: least squares design, C65: the responses it is asked for
-/

namespace Verif
open Complex
set_option linter.unusedSimpArgs false

/-- `solve` minimises the sum of the squares of the residuals. -/
def IsLeastSquares (solve : LsSolver) : Prop :=
  ∀ (A : ℕ → ℕ → ℝ) (b : ℕ → ℝ) (rows cols : ℕ) (x : ℕ → ℝ),
    ∑ r ∈ Finset.range rows, (∑ k ∈ Finset.range cols, A r k * solve A b rows cols k - b r) ^ 2 ≤
      ∑ r ∈ Finset.range rows, (∑ k ∈ Finset.range cols, A r k * x k - b r) ^ 2

/-- the number of grid points the library uses for a filter of `n` taps -/
def lsGrid (n grid : ℕ) : ℕ := if grid = 0 then 4 * ((n + 1) / 2) else min ((n + 1) / 2) grid

theorem sequenceN_ok {f : ℕ → Out ℝ} {v : ℕ → ℝ} : ∀ n, (∀ i, i < n → f i = .ok (v i)) → sequenceN f n = .ok ((List.range n).map v)
  | 0, _ => rfl
  | n + 1, h => by
    unfold sequenceN
    rw [sequenceN_ok n fun i hi => h i (by omega), Out.ok_bind, h n (by omega), Out.ok_bind, Out.pure_def, List.range_succ,
      List.map_append]
    rfl

/-- the symmetric filter with right half `x` -/
def mirrored (L : ℕ) (x : ℕ → ℝ) (t : ℕ) : ℝ := if t < L then x (L - 1 - t) else x (t - (L - 1))

theorem lsStore (mem : List ℝ) (pos L : ℕ) (x : ℕ → ℝ) (hm : pos + (2 * L - 1) ≤ mem.length) :
    ∃ m, forN L (fun i mem => do
        let mem ← wr mem ((pos + i : Nat) : Int) (x (L - i - 1))
        wr mem ((pos + (i + L - 1) : Nat) : Int) (x i)) mem = .ok m ∧ Writes mem m ⟨pos, 2 * L - 1⟩ (mirrored L x) := by
  have key := forN_inv
    (body := fun i mem => do
      let mem ← wr mem ((pos + i : Nat) : Int) (x (L - i - 1))
      wr mem ((pos + (i + L - 1) : Nat) : Int) (x i))
    (fun k (m : List ℝ) => m.length = mem.length ∧ ∀ j, m[j]? =
      if (pos ≤ j ∧ j < pos + k) ∨ (pos + (L - 1) ≤ j ∧ j < pos + (L - 1) + k) then some (mirrored L x (j - pos)) else mem[j]?) L mem
    ⟨rfl, fun j => by rw [if_neg (by omega)]⟩
  replace key := key (by
    intro i m hi ⟨hl, hx⟩
    obtain ⟨m1, e1, hl1, hx1⟩ := wr_upd (mem := m) (p := pos + i) (by omega) (x (L - i - 1))
    obtain ⟨m2, e2, hl2, hx2⟩ := wr_upd (mem := m1) (p := pos + (i + L - 1)) (by omega) (x i)
    refine ⟨m2, by rw [e1, Out.ok_bind, e2], by omega, fun j => ?_⟩
    rw [hx2, hx1, hx]
    by_cases h2 : j = pos + (i + L - 1)
    · subst h2
      rw [if_pos rfl, if_pos (by omega), Nat.add_sub_cancel_left]
      unfold mirrored
      by_cases hi0 : i = 0
      · subst hi0
        rw [if_pos (by omega)]
        congr 2
        omega
      · rw [if_neg (by omega)]
        congr 2
        omega
    · rw [if_neg h2]
      by_cases h1 : j = pos + i
      · subst h1
        rw [if_pos rfl, if_pos (by omega), Nat.add_sub_cancel_left]
        unfold mirrored
        rw [if_pos (by omega)]
        congr 2
        omega
      · rw [if_neg h1]
        by_cases h3 : (pos ≤ j ∧ j < pos + i) ∨ (pos + (L - 1) ≤ j ∧ j < pos + (L - 1) + i)
        · rw [if_pos h3, if_pos (by omega)]
        · rw [if_neg h3, if_neg (by omega)])
  obtain ⟨m, e1, hl, hx⟩ := key
  refine ⟨m, e1, hl, fun i hi => ?_, fun j hj => ?_⟩
  · simp only [] at hi ⊢
    rw [hx, if_pos (by omega), Nat.add_sub_cancel_left]
  · simp only [] at hj
    rw [hx, if_neg (by omega)]

theorem mirrored_palindrome (L : ℕ) (x : ℕ → ℝ) : Palindrome (2 * L - 1) (mirrored L x) := by
  intro i hi
  unfold mirrored
  by_cases h : i < L
  · rw [if_pos h]
    by_cases h' : i = L - 1
    · rw [if_pos (by omega)]; congr 1; omega
    · rw [if_neg (by omega)]; congr 1; omega
  · rw [if_neg h, if_pos (by omega)]
    congr 1
    omega

/-- response of a symmetric filter of odd length by its right half -/
theorem centredResponse_re_odd (c : ℕ) (g : ℕ → ℝ) (hp : Palindrome (2 * c + 1) g) (w : ℝ) :
    (centredResponse (2 * c + 1) g w).re = ∑ k ∈ Finset.range (c + 1), (if k = 0 then 1 else 2 * Real.cos (w * k)) * g (c + k) := by
  have hre : (centredResponse (2 * c + 1) g w).re = ∑ i ∈ Finset.range (2 * c + 1), g i * Real.cos (w * (i - c)) := by
    rw [centredResponse_eq, Complex.re_sum]
    refine Finset.sum_congr rfl fun i _ => ?_
    have hc : (((2 * c + 1 : ℕ) : ℝ) - 1) / 2 = c := by push_cast; ring
    rw [hc, Complex.re_ofReal_mul]
    congr 1
    rw [← Complex.ofReal_neg, Complex.exp_ofReal_mul_I_re, Real.cos_neg]
  rw [hre, show 2 * c + 1 = c + (c + 1) by ring, Finset.sum_range_add, Finset.sum_range_succ', Finset.sum_range_succ',
    ← Finset.sum_range_reflect, ← add_assoc, ← Finset.sum_add_distrib]
  congr 1
  · refine Finset.sum_congr rfl fun j hj => ?_
    have hj := Finset.mem_range.1 hj
    have h1 : g (c - 1 - j) = g (c + (j + 1)) := by
      have := hp (c + (j + 1)) (by omega)
      rw [← this]
      congr 1
      omega
    have h2 : ((c - 1 - j : ℕ) : ℝ) - c = -((j : ℝ) + 1) := by
      rw [Nat.cast_sub (by omega), Nat.cast_sub (by omega), Nat.cast_one]; ring
    have h3 : ((c + (j + 1) : ℕ) : ℝ) - c = (j : ℝ) + 1 := by push_cast; ring
    rw [h1, h2, h3, mul_neg, Real.cos_neg, if_neg (by omega)]
    push_cast
    ring
  · simp

theorem usub_pred {G : ℕ} (hG : 2 ≤ G) : ((usub G 1 : ℕ) : ℝ) = (G : ℝ) - 1 := by
  rw [usub, if_pos (by omega), Nat.cast_sub (by omega), Nat.cast_one]

theorem kernelLeastSquares_core (solve : LsSolver) (mem : List ℝ) (out : Span) (L : ℕ) (hL : L = (out.size + 1) / 2)
    (hm : out.pos + (2 * L - 1) ≤ mem.length)
    (responseFunc weightFunc : ℝ → Out ℝ) (grid G : ℕ) (hG : G = lsGrid out.size grid) (hG2 : 2 ≤ G) (D V : ℕ → ℝ)
    (hD : ∀ r, r < G → responseFunc (r / ((G : ℝ) - 1)) = .ok (D r)) (hV : ∀ r, r < G → weightFunc (r / ((G : ℝ) - 1)) = .ok (V r)) :
    ∃ m g, kernelLeastSquares solve mem out responseFunc weightFunc grid = .ok m ∧ Writes mem m ⟨out.pos, 2 * L - 1⟩ g ∧
      Palindrome (2 * L - 1) g ∧
      (IsLeastSquares solve → ∀ g', Palindrome (2 * L - 1) g' →
        ∑ r ∈ Finset.range G, (V r * ((centredResponse (2 * L - 1) g (Real.pi * (r / ((G : ℝ) - 1)))).re - D r)) ^ 2 ≤
          ∑ r ∈ Finset.range G, (V r * ((centredResponse (2 * L - 1) g' (Real.pi * (r / ((G : ℝ) - 1)))).re - D r)) ^ 2) := by
  have hL1 : 1 ≤ L := by
    unfold lsGrid at hG
    split_ifs at hG <;> omega
  have hus := usub_pred hG2
  have hne : (G : ℝ) - 1 ≠ 0 := by
    have : (2 : ℝ) ≤ G := by exact_mod_cast hG2
    linarith
  have hw := sequenceN_ok (f := fun i => weightFunc ((i : ℝ) / ((usub G 1 : ℕ) : ℝ))) (v := V) G (fun r hr => by
    rw [hus, hV r hr])
  have hresp := sequenceN_ok (f := fun i => responseFunc ((i : ℝ) * (1 / ((usub G 1 : ℕ) : ℝ)))) (v := D) G (fun r hr => by
    rw [hus, mul_one_div, hD r hr])
  obtain ⟨A, hA⟩ : ∃ A : ℕ → ℕ → ℝ, A = fun r k => sig ((List.range G).map V) r * lsCoefficient G r k := ⟨_, rfl⟩
  obtain ⟨b, hb⟩ : ∃ b : ℕ → ℝ, b = fun r => sig ((List.range G).map V) r * sig ((List.range G).map D) r := ⟨_, rfl⟩
  obtain ⟨x, hx⟩ : ∃ x, x = solve A b G L := ⟨_, rfl⟩
  obtain ⟨m, e1, h1⟩ := lsStore mem out.pos L x hm
  refine ⟨m, _, ?_, h1, mirrored_palindrome L x, fun hls g' hg' => ?_⟩
  · unfold kernelLeastSquares
    simp only [← hL]
    have hG' : (if grid = 0 then 4 * L else min L grid) = G := by rw [hG, lsGrid, hL]
    rw [hG', fdiv_ok (by rw [hus]; exact hne), Out.ok_bind, hw, Out.ok_bind, hresp, Out.ok_bind, ← hA, ← hb, ← hx, e1]
  · have hsv : ∀ r, r < G → sig ((List.range G).map V) r = V r := by
      intro r hr
      rw [show (List.range G).map V = reg G V from rfl, sig_reg, if_pos hr]
    have hsd : ∀ r, r < G → sig ((List.range G).map D) r = D r := by
      intro r hr
      rw [show (List.range G).map D = reg G D from rfl, sig_reg, if_pos hr]
    obtain ⟨c, rfl⟩ : ∃ c, L = c + 1 := ⟨L - 1, by omega⟩
    have h2L : 2 * (c + 1) - 1 = 2 * c + 1 := by omega
    rw [h2L] at hg' ⊢
    have hrow : ∀ (h : ℕ → ℝ), Palindrome (2 * c + 1) h → ∀ r ∈ Finset.range G,
        V r * ((centredResponse (2 * c + 1) h (Real.pi * (r / ((G : ℝ) - 1)))).re - D r) =
          ∑ k ∈ Finset.range (c + 1), A r k * h (c + k) - b r := by
      intro h hh r hr
      have hr := Finset.mem_range.1 hr
      rw [centredResponse_re_odd c h hh, hA, hb]
      simp only []
      rw [hsv r hr, hsd r hr, mul_sub, Finset.mul_sum]
      congr 1
      refine Finset.sum_congr rfl fun k _ => ?_
      unfold lsCoefficient
      rw [hus]
      have : (r : ℝ) * (1 / ((G : ℝ) - 1) * Real.pi) * k = Real.pi * (r / ((G : ℝ) - 1)) * k := by ring
      rw [this]
      split_ifs <;> ring
    have hp := mirrored_palindrome (c + 1) x
    rw [h2L] at hp
    have hs : ∀ (h : ℕ → ℝ), Palindrome (2 * c + 1) h →
        ∑ r ∈ Finset.range G, (V r * ((centredResponse (2 * c + 1) h (Real.pi * (r / ((G : ℝ) - 1)))).re - D r)) ^ 2 =
          ∑ r ∈ Finset.range G, (∑ k ∈ Finset.range (c + 1), A r k * h (c + k) - b r) ^ 2 :=
      fun h hh => Finset.sum_congr rfl fun r hr => by rw [hrow h hh r hr]
    rw [hs _ hp, hs _ hg']
    have hmx : ∀ k, k ∈ Finset.range (c + 1) → mirrored (c + 1) x (c + k) = x k := by
      intro k hk
      unfold mirrored
      by_cases h0 : k = 0
      · subst h0; rw [if_pos (by omega)]; congr 1; omega
      · rw [if_neg (by omega)]; congr 1; omega
    have := hls A b G (c + 1) (fun k => g' (c + k))
    rw [← hx] at this
    refine le_trans (le_of_eq ?_) this
    refine Finset.sum_congr rfl fun r _ => ?_
    congr 2
    exact Finset.sum_congr rfl fun k hk => by rw [hmx k hk]

section
variable (solve : LsSolver) (mem : List ℝ) (out : Span) (hm : out.Within mem) (responseFunc weightFunc : ℝ → Out ℝ) (grid G : ℕ)
  (hG : G = lsGrid out.size grid) (hG2 : 2 ≤ G) (D V : ℕ → ℝ)
  (hD : ∀ r, r < G → responseFunc (r / ((G : ℝ) - 1)) = .ok (D r)) (hV : ∀ r, r < G → weightFunc (r / ((G : ℝ) - 1)) = .ok (V r))
include hm hG hG2 hD hV

/-- **C51**: for odd lengths every tap is written (and nothing else), the filter is symmetric, has linear phase, and no other
symmetric filter of that length comes closer to the wanted response on the grid, in the sense of the weighted squares (provided
the linear solver solves the least squares problem it is given). -/
theorem C51_odd_partial (hodd : out.size % 2 = 1) :
    ∃ m g, designLSArbitrary solve mem out responseFunc weightFunc grid = .ok m ∧ Writes mem m out g ∧ Palindrome out.size g ∧
      (∀ v, (centredResponse out.size g v).im = 0) ∧
      (IsLeastSquares solve → ∀ g', Palindrome out.size g' →
        ∑ r ∈ Finset.range G, (V r * ((centredResponse out.size g (Real.pi * (r / ((G : ℝ) - 1)))).re - D r)) ^ 2 ≤
          ∑ r ∈ Finset.range G, (V r * ((centredResponse out.size g' (Real.pi * (r / ((G : ℝ) - 1)))).re - D r)) ^ 2) := by
  unfold Span.Within at hm
  obtain ⟨m, g, e1, h1, hp, hopt⟩ := kernelLeastSquares_core solve mem out _ rfl (by omega) responseFunc weightFunc grid G hG hG2 D V hD hV
  have hsz : 2 * ((out.size + 1) / 2) - 1 = out.size := by omega
  rw [hsz] at h1 hp hopt
  exact ⟨m, g, e1, h1, hp, fun v => hp.linear_phase v, hopt⟩

/-- **C51**, what the library does for even lengths: the last tap is not written at all; the others are a symmetric filter of the
odd length before it. -/
theorem C51_even_wrong (heven : out.size % 2 = 0) (hpos : 0 < out.size) :
    ∃ m g, designLSArbitrary solve mem out responseFunc weightFunc grid = .ok m ∧ Writes mem m ⟨out.pos, out.size - 1⟩ g ∧
      Palindrome (out.size - 1) g ∧ m[out.pos + (out.size - 1)]? = mem[out.pos + (out.size - 1)]? := by
  unfold Span.Within at hm
  obtain ⟨m, g, e1, h1, hp, -⟩ := kernelLeastSquares_core solve mem out _ rfl (by omega) responseFunc weightFunc grid G hG hG2 D V hD hV
  have hsz : 2 * ((out.size + 1) / 2) - 1 = out.size - 1 := by omega
  rw [hsz] at h1 hp
  exact ⟨m, g, e1, h1, hp, h1.rest _ (Or.inr le_rfl)⟩

end

/-- **C51**, what the library does with a single grid point (`Grid(1)`, or any grid for a filter of one or two taps): `1 / 0`. -/
theorem C51_one_point_wrong (solve : LsSolver) (mem : List ℝ) (out : Span) (responseFunc weightFunc : ℝ → Out ℝ) (grid : ℕ)
    (hG : lsGrid out.size grid = 1) : designLSArbitrary solve mem out responseFunc weightFunc grid = .ub := by
  unfold designLSArbitrary kernelLeastSquares
  have : (if grid = 0 then 4 * ((out.size + 1) / 2) else min ((out.size + 1) / 2) grid) = 1 := hG
  simp only [this]
  rw [fdiv_zero (by simp [usub])]
  rfl

/-- **C51**, what the library does with a requested grid: it uses at most one point per free coefficient, however fine a grid was
asked for. -/
theorem C51_grid_wrong (n grid : ℕ) (h : 0 < grid) : lsGrid n grid ≤ (n + 1) / 2 := by
  unfold lsGrid
  rw [if_neg (by omega)]
  exact min_le_left _ _

/-- Such a solver exists. -/
theorem exists_leastSquares : ∃ solve : LsSolver, IsLeastSquares solve := by
  have h : ∀ (A : ℕ → ℕ → ℝ) (b : ℕ → ℝ) (rows cols : ℕ), ∃ y : ℕ → ℝ, ∀ x : ℕ → ℝ,
      ∑ r ∈ Finset.range rows, (∑ k ∈ Finset.range cols, A r k * y k - b r) ^ 2 ≤
        ∑ r ∈ Finset.range rows, (∑ k ∈ Finset.range cols, A r k * x k - b r) ^ 2 := by
    intro A b rows cols
    let f : (Fin cols → ℝ) →ₗ[ℝ] EuclideanSpace ℝ (Fin rows) :=
      (WithLp.linearEquiv 2 ℝ (Fin rows → ℝ)).symm.toLinearMap ∘ₗ
        Matrix.mulVecLin (Matrix.of fun (r : Fin rows) (k : Fin cols) => A r k)
    let B : EuclideanSpace ℝ (Fin rows) := WithLp.toLp 2 fun r => b r
    obtain ⟨v, hv, hmin⟩ := (LinearMap.range f).exists_norm_eq_iInf_of_complete_subspace
      (LinearMap.range f).complete_of_finiteDimensional B
    obtain ⟨y, rfl⟩ := hv
    have hval : ∀ z : ℕ → ℝ, ‖B - f (fun k => z k)‖ ^ 2 =
        ∑ r ∈ Finset.range rows, (∑ k ∈ Finset.range cols, A r k * z k - b r) ^ 2 := by
      intro z
      rw [EuclideanSpace.norm_sq_eq, ← Fin.sum_univ_eq_sum_range (fun r => (∑ k ∈ Finset.range cols, A r k * z k - b r) ^ 2)]
      refine Finset.sum_congr rfl fun r _ => ?_
      have : (B - f (fun k => z k)).ofLp r = b r - ∑ k ∈ Finset.range cols, A r k * z k := by
        rw [← Fin.sum_univ_eq_sum_range (fun k => A r k * z k)]
        rfl
      rw [Real.norm_eq_abs, sq_abs, this]
      ring
    refine ⟨fun k => if h : k < cols then y ⟨k, h⟩ else 0, fun x => ?_⟩
    have hy : (fun k : Fin cols => (fun k => if h : k < cols then y ⟨k, h⟩ else 0) (k : ℕ)) = y := by
      funext k
      simp
    rw [← hval, ← hval, hy]
    have hle : ‖B - f y‖ ≤ ‖B - f (fun k => x k)‖ := by
      rw [hmin]
      exact ciInf_le ⟨0, by rintro _ ⟨w, rfl⟩; exact norm_nonneg _⟩ (⟨f (fun k => x k), LinearMap.mem_range_self _ _⟩ : LinearMap.range f)
    exact pow_le_pow_left₀ (norm_nonneg _) hle 2
  choose y hy using h
  exact ⟨fun A b rows cols => y A b rows cols, hy⟩

-- The hypotheses are met: a solver, and an odd filter with the default grid
example : ∃ solve m g, IsLeastSquares solve ∧
    designLSArbitrary solve [0, 0, 0, 0, 0] ⟨1, 3⟩ (fun f => pure (1 - f)) (fun _ => pure 1) 0 = .ok m ∧
    Writes [0, 0, 0, 0, 0] m ⟨1, 3⟩ g ∧ Palindrome 3 g := by
  obtain ⟨solve, hs⟩ := exists_leastSquares
  obtain ⟨m, g, e, h1, h2, -⟩ := C51_odd_partial solve [0, 0, 0, 0, 0] ⟨1, 3⟩ (by simp [Span.Within]) (fun f => pure (1 - f))
    (fun _ => pure 1) 0 8 rfl (by norm_num) (fun r => 1 - (r / (((8 : ℕ) : ℝ) - 1))) (fun _ => 1) (fun _ _ => rfl) (fun _ _ => rfl) rfl
  exact ⟨solve, m, g, hs, e, h1, h2⟩

end Verif
