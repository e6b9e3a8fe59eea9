import Verif.Lemmas.PolynomialsFloat
import Verif.Props.OverlapAddRealRounded
import Verif.Props.Numeric

/-!
# C97: evaluating polynomials in floating point

`polyAt`, `rootsAt`, `rootsMagnitude` and `rootsCeiling` are defined in Verif/Spec/Polynomial.lean.
-/

set_option linter.unusedSimpArgs false
set_option linter.unusedSectionVars false
set_option linter.unusedVariables false

namespace Verif
open PocketF Finset

variable {F : Type} [Zero F] [Add F] [Sub F] [Mul F] [Fma F] [Neg F]

private theorem polyAt_ofReal (c : List F) (v : F → ℝ) (x : ℝ) :
    polyAt (c.map fun a => ((v a : ℝ) : ℂ)) (x : ℂ) = ((polyAt (c.map v) x : ℝ) : ℂ) := by
  induction c with
  | nil => simp [polyAt]
  | cons a c ih =>
    simp only [List.map_cons, PolyF.polyAt_cons]
    rw [ih]
    push_cast
    rfl

private theorem pow_num {w : ℝ} (n : ℕ) (hw : 0 ≤ w) (h : n * w ≤ 1 / 3) : (1 + w) ^ n - 1 ≤ 4 / 3 * (n * w) ∧ (1 + w) ^ n ≤ 3 / 2 := by
  have a := one_add_pow_le hw n (by linarith)
  have b : 0 ≤ n * w := by positivity
  have c : n * w * (1 + n * w) ≤ n * w * (4 / 3) := mul_le_mul_of_nonneg_left (by linarith) b
  constructor <;> linarith

/-- **C97** a polynomial with `n` coefficients at a real number: off by at most `3 n u` times the value for the magnitudes (plus
underflow). -/
theorem C97_real (A : FloatArithNeg F) (c : List F) (x : F) (hu : 8 * (c.length + 1) * A.u ≤ 1) (hx : A.finite x) (hc : ∀ a ∈ c, A.finite a)
    (hh : ∀ r, r <:+ c →
      3 / 2 * (polyAt (r.map fun a => |A.val a|) |A.val x| + A.tiny * geometric r.length |A.val x|) ≤ A.huge) :
    A.finite (polyEval id c x) ∧ |A.val (polyEval id c x) - polyAt (c.map A.val) (A.val x)| ≤
      3 * c.length * A.u * polyAt (c.map fun a => |A.val a|) |A.val x| + 3 / 2 * A.tiny * geometric c.length |A.val x| := by
  have u0 := A.u_nonneg
  have t0 := A.tiny_nonneg
  have nrm : ∀ r : ℝ, ‖(r : ℂ)‖ = |r| := fun r => Complex.norm_real r
  have hu1 : 8 * A.u ≤ 1 := by
    have : 0 ≤ (c.length : ℝ) * A.u := by positivity
    linarith
  obtain ⟨w, hw⟩ : ∃ w, w = 2 * A.u + A.u * A.u := ⟨_, rfl⟩
  have hw0 : 0 ≤ w := by rw [hw]; positivity
  have hwu : w ≤ 17 / 8 * A.u := by
    have := mul_le_mul_of_nonneg_right hu1 u0
    linarith
  have hg : 1 + w = (1 + A.u) * (1 + A.u) := by rw [hw]; ring
  have small : ∀ n : ℕ, n ≤ c.length → (n : ℝ) * w ≤ 1 / 3 ∧ n * w ≤ 17 / 8 * (n * A.u) := by
    intro n hn
    have a : (n : ℝ) ≤ c.length := by exact_mod_cast hn
    have b : (n : ℝ) * A.u ≤ c.length * A.u := mul_le_mul_of_nonneg_right a u0
    have d : (n : ℝ) * w ≤ n * (17 / 8 * A.u) := mul_le_mul_of_nonneg_left hwu (Nat.cast_nonneg _)
    constructor <;> linarith
  have mag0 : ∀ r : List F, 0 ≤ polyAt (r.map fun a => |A.val a|) |A.val x| := by
    intro r
    induction r with
    | nil => simp [polyAt]
    | cons a r ih =>
      simp only [List.map_cons, PolyF.polyAt_cons]
      positivity
  obtain ⟨f, -, e⟩ := PolyF.horner (T := F) id A.finite (fun y => (A.val y : ℂ)) (fun a => (A.val a : ℂ)) A.finite x A.u A.u A.tiny A.huge
    (1 + w) u0 u0 t0 hg A.zero_finite (by rw [A.val_zero]; simp)
    (by
      intro y hy h
      rw [← Complex.ofReal_mul, nrm] at h ⊢
      obtain ⟨f, e⟩ := A.mul x y hx hy h
      exact ⟨f, by rw [← Complex.ofReal_sub, nrm]; exact e⟩)
    (by
      intro y a hy ha h
      rw [← Complex.ofReal_add, nrm] at h ⊢
      obtain ⟨f, e⟩ := A.add y a hy ha h
      exact ⟨f, by rw [← Complex.ofReal_sub, nrm]; exact e⟩) c hc
    (by
      intro r hr
      simp only [nrm]
      refine le_trans ?_ (hh r hr)
      apply mul_le_mul_of_nonneg_right (pow_num r.length hw0 (small _ hr.length_le).1).2
      have := mag0 r
      have := PolyF.geometric_nonneg r.length (abs_nonneg (A.val x))
      positivity)
  refine ⟨f, ?_⟩
  simp only [nrm, polyAt_ofReal] at e
  rw [← Complex.ofReal_sub, nrm] at e
  refine e.trans ?_
  obtain ⟨s1, s2⟩ := small c.length le_rfl
  obtain ⟨p1, p2⟩ := pow_num c.length hw0 s1
  have g0 := PolyF.geometric_nonneg c.length (abs_nonneg (A.val x))
  have k1 : ((1 + w) ^ c.length - 1) * polyAt (c.map fun a => |A.val a|) |A.val x|
      ≤ 3 * c.length * A.u * polyAt (c.map fun a => |A.val a|) |A.val x| := by
    apply mul_le_mul_of_nonneg_right _ (mag0 c)
    have : 0 ≤ (c.length : ℝ) * A.u := by positivity
    linarith
  have k2 : A.tiny * (1 + w) ^ c.length * geometric c.length |A.val x| ≤ 3 / 2 * A.tiny * geometric c.length |A.val x| := by
    apply mul_le_mul_of_nonneg_right _ g0
    have := mul_le_mul_of_nonneg_left p2 t0
    linarith
  linarith

/-- **C97** ... and at a complex number. -/
theorem C97_complex (A : FloatArithNeg F) (c : List F) (x : Cx F) (hu : 20 * (c.length + 1) * A.u ≤ 1) (hx : FinC A x)
    (hc : ∀ a ∈ c, A.finite a)
    (hh : ∀ r, r <:+ c →
      3 * (polyAt (r.map fun a => |A.val a|) ‖cval A x‖ + 6 * A.tiny * geometric r.length ‖cval A x‖) + 2 * A.tiny ≤ A.huge) :
    FinC A (polyEval ofReal c x) ∧ ‖cval A (polyEval ofReal c x) - polyAt (c.map fun a => (A.val a : ℂ)) (cval A x)‖ ≤
      9 * c.length * A.u * polyAt (c.map fun a => |A.val a|) ‖cval A x‖ + 9 * A.tiny * geometric c.length ‖cval A x‖ := by
  have u0 := A.u_nonneg
  have t0 := A.tiny_nonneg
  have nrm : ∀ r : ℝ, ‖(r : ℂ)‖ = |r| := fun r => Complex.norm_real r
  have hu1 : 20 * A.u ≤ 1 := by
    have : 0 ≤ (c.length : ℝ) * A.u := by positivity
    linarith
  obtain ⟨w, hw⟩ : ∃ w, w = 6 * A.u + 5 * (A.u * A.u) := ⟨_, rfl⟩
  have hw0 : 0 ≤ w := by rw [hw]; positivity
  have hwu : w ≤ 25 / 4 * A.u := by
    have := mul_le_mul_of_nonneg_right hu1 u0
    linarith
  have hg : 1 + w = (1 + 5 * A.u) * (1 + A.u) := by rw [hw]; ring
  have small : ∀ n : ℕ, n ≤ c.length → (n : ℝ) * w ≤ 1 / 3 ∧ n * w ≤ 25 / 4 * (n * A.u) := by
    intro n hn
    have a : (n : ℝ) ≤ c.length := by exact_mod_cast hn
    have b : (n : ℝ) * A.u ≤ c.length * A.u := mul_le_mul_of_nonneg_right a u0
    have d : (n : ℝ) * w ≤ n * (25 / 4 * A.u) := mul_le_mul_of_nonneg_left hwu (Nat.cast_nonneg _)
    constructor <;> linarith
  have mag0 : ∀ r : List F, 0 ≤ polyAt (r.map fun a => |A.val a|) ‖cval A x‖ := by
    intro r
    induction r with
    | nil => simp [polyAt]
    | cons a r ih =>
      simp only [List.map_cons, PolyF.polyAt_cons]
      positivity
  obtain ⟨f, -, e⟩ := PolyF.horner (T := F) ofReal (FinC A) (cval A) (fun a => (A.val a : ℂ)) A.finite x A.u (5 * A.u) (6 * A.tiny)
    ((A.huge - 2 * A.tiny) / 2)
    (1 + w) u0 (by positivity) (by positivity) hg ⟨A.zero_finite, A.zero_finite⟩ (by
      apply Complex.ext
      · exact A.val_zero
      · exact A.val_zero)
    (by
      intro y hy h
      exact PolyF.cx_mul A (by linarith) hx hy (by linarith))
    (by
      intro y a hy ha h
      have e : cval A (ofReal a) = (A.val a : ℂ) := by
        apply Complex.ext
        · rfl
        · exact A.val_zero
      have hle : ∀ z : ℂ, ‖z‖ ≤ (A.huge - 2 * A.tiny) / 2 → ‖z‖ ≤ A.huge := by
        intro z hz
        have := norm_nonneg z
        linarith
      have := (cxAdd A).add y (ofReal a) hy ⟨ha, A.zero_finite⟩
        (by change ‖cval A y + cval A (ofReal a)‖ ≤ A.huge; rw [e]; exact hle _ h)
      change FinC A _ ∧ ‖cval A _ - (cval A y + cval A (ofReal a))‖ ≤ A.u * ‖cval A y + cval A (ofReal a)‖ at this
      rwa [e] at this) c hc
    (by
      intro r hr
      simp only [nrm]
      have a := hh r hr
      have q : 0 ≤ polyAt (r.map fun a => |A.val a|) ‖cval A x‖ + 6 * A.tiny * geometric r.length ‖cval A x‖ := by
        have := mag0 r
        have := PolyF.geometric_nonneg r.length (norm_nonneg (cval A x))
        positivity
      have := mul_le_mul_of_nonneg_right (pow_num r.length hw0 (small _ hr.length_le).1).2 q
      linarith)
  refine ⟨f, ?_⟩
  simp only [nrm] at e
  refine e.trans ?_
  obtain ⟨s1, s2⟩ := small c.length le_rfl
  obtain ⟨p1, p2⟩ := pow_num c.length hw0 s1
  have g0 := PolyF.geometric_nonneg c.length (norm_nonneg (cval A x))
  have k1 : ((1 + w) ^ c.length - 1) * polyAt (c.map fun a => |A.val a|) ‖cval A x‖
      ≤ 9 * c.length * A.u * polyAt (c.map fun a => |A.val a|) ‖cval A x‖ := by
    apply mul_le_mul_of_nonneg_right _ (mag0 c)
    have : 0 ≤ (c.length : ℝ) * A.u := by positivity
    linarith
  have k2 : 6 * A.tiny * (1 + w) ^ c.length * geometric c.length ‖cval A x‖ ≤ 9 * A.tiny * geometric c.length ‖cval A x‖ := by
    apply mul_le_mul_of_nonneg_right _ g0
    have := mul_le_mul_of_nonneg_left p2 t0
    linarith
  linarith

set_option maxHeartbeats 1000000 in
/-- **C97** a factored polynomial at a real number, whatever the order in which the library multiplies the factors. -/
theorem C97_factored (A : FloatArithNeg F) (red : (F → F → F) → F → List F → F) (hred : IsReduction red) (one two : F)
    (h1 : A.finite one ∧ A.val one = 1) (h2 : A.finite two ∧ A.val two = 2) (reals : List F) (pairs : List (Cx F)) (x : F)
    (hx : A.finite x) (hr : ∀ r ∈ reals, A.finite r) (hp : ∀ z ∈ pairs, FinC A z) (N : ℕ) (hN : N = reals.length + pairs.length + 2)
    (hu : 60 * N * A.u ≤ 1) (ht : 18 * A.tiny * (N * N) ≤ 1)
    (R : List ℝ) (hR : R = reals.map A.val) (P : List (ℝ × ℝ)) (hP : P = pairs.map fun z => (A.val z.re, A.val z.im))
    (hh : 4 * rootsCeiling R P (A.val x) ≤ A.huge) :
    A.finite (factoredEval red one two reals pairs x) ∧
      |A.val (factoredEval red one two reals pairs x) - rootsAt R P (A.val x)| ≤
        8 * N * A.u * rootsMagnitude R P (A.val x) + 21 * N * A.tiny * rootsCeiling R P (A.val x) := by
  have u0 := A.u_nonneg
  have t0 := A.tiny_nonneg
  have hN2 : 2 ≤ N := by omega
  have hNr : (2 : ℝ) ≤ N := by exact_mod_cast hN2
  have hu1 : 60 * A.u ≤ 1 := by
    have := mul_le_mul_of_nonneg_right hNr u0
    linarith
  have ht1 : A.tiny ≤ 1 / 10 := by
    have : A.tiny * (2 * 2) ≤ A.tiny * (N * N) := mul_le_mul_of_nonneg_left (by nlinarith) t0
    linarith
  -- the leaves: one, the real roots, one, the pairs
  let f : Option (F ⊕ Cx F) → F := fun i => match i with
    | none => one
    | some (.inl r) => x - r
    | some (.inr z) => pairFactor two x z.re z.im
  let d : Option (F ⊕ Cx F) → ℝ := fun i => match i with
    | none => 1
    | some (.inl r) => A.val x - A.val r
    | some (.inr z) => (A.val x - A.val z.re) ^ 2 + A.val z.im ^ 2
  let μ : Option (F ⊕ Cx F) → ℝ := fun i => match i with
    | none => 1
    | some (.inl r) => |A.val x - A.val r|
    | some (.inr z) => (|A.val x| + |A.val z.re|) ^ 2 + A.val z.im ^ 2
  let M : Option (F ⊕ Cx F) → ℝ := fun i => match i with
    | none => 1
    | some (.inl r) => 1 + |A.val x - A.val r|
    | some (.inr z) => 1 + ((|A.val x| + |A.val z.re|) ^ 2 + A.val z.im ^ 2)
  let li : List (Option (F ⊕ Cx F)) := none :: reals.map fun r => some (.inl r)
  let lj : List (Option (F ⊕ Cx F)) := none :: pairs.map fun z => some (.inr z)
  obtain ⟨t1, q1, e1⟩ := hred (· * ·) one (reals.map fun root => x - root)
  obtain ⟨t2, q2, e2⟩ := hred (· * ·) one (pairs.map fun root => pairFactor two x root.re root.im)
  obtain ⟨l1, p1, g1⟩ := PolyF.perm_map f q1.symm li (by simp [li, f, Function.comp_def])
  obtain ⟨l2, p2, g2⟩ := PolyF.perm_map f q2.symm lj (by simp [lj, f, Function.comp_def])
  have hperm : (l1 ++ l2).Perm (li ++ lj) := p1.append p2
  have hlen : (l1 ++ l2).length = N := by
    rw [hperm.length_eq, hN]
    simp [li, lj]
    omega
  have prd : ∀ h : Option (F ⊕ Cx F) → ℝ, ((l1 ++ l2).map h).prod = ((li ++ lj).map h).prod := fun h => (hperm.map h).prod_eq
  have d1 : ((l1 ++ l2).map d).prod = rootsAt R P (A.val x) := by
    rw [prd, hR, hP]
    simp [li, lj, d, rootsAt, Function.comp_def]
  have d2 : ((l1 ++ l2).map μ).prod = rootsMagnitude R P (A.val x) := by
    rw [prd, hR, hP]
    simp [li, lj, μ, rootsMagnitude, Function.comp_def]
  have d3 : ((l1 ++ l2).map M).prod = rootsCeiling R P (A.val x) := by
    rw [prd, hR, hP]
    simp [li, lj, M, rootsCeiling, Function.comp_def]
  have hM1 : ∀ i, 1 ≤ M i := by
    intro i
    match i with
    | none => exact le_rfl
    | some (.inl r) => exact le_add_of_nonneg_right (abs_nonneg _)
    | some (.inr z) => exact le_add_of_nonneg_right (by positivity)
  have hMle : ∀ i ∈ l1 ++ l2, 4 * M i ≤ A.huge := by
    intro i hi
    refine le_trans ?_ hh
    rw [← d3]
    obtain ⟨a, b, hab⟩ := List.append_of_mem hi
    rw [hab]
    simp only [List.map_append, List.map_cons, List.prod_append, List.prod_cons]
    have h1 := PolyF.prod_one_le a M fun j _ => hM1 j
    have h2 := PolyF.prod_one_le b M fun j _ => hM1 j
    have h3 := hM1 i
    have h4 : M i ≤ M i * (b.map M).prod := le_mul_of_one_le_right (by linarith) h2
    have h5 : M i * (b.map M).prod ≤ (a.map M).prod * (M i * (b.map M).prod) := le_mul_of_one_le_left (by linarith) h1
    linarith
  have hpow : ∀ m : ℕ, m ≤ 7 * N → (1 + A.u) ^ m - 1 ≤ 8 * N * A.u ∧ (1 + A.u) ^ m ≤ 7 / 6 := by
    intro m hm
    have a : (m : ℝ) ≤ 7 * N := by exact_mod_cast hm
    have b : (m : ℝ) * A.u ≤ 7 * N * A.u := mul_le_mul_of_nonneg_right a u0
    have c := one_add_pow_le u0 m (by linarith)
    have d0 : 0 ≤ (m : ℝ) * A.u := by positivity
    have e : (m : ℝ) * A.u * (1 + m * A.u) ≤ m * A.u * (67 / 60) := mul_le_mul_of_nonneg_left (by linarith) d0
    have n0 : 0 ≤ (N : ℝ) * A.u := by positivity
    constructor <;> linarith
  obtain ⟨r1, r2⟩ := PolyF.prod_tree A.toFloatArith f d μ M 6 N 9 (by norm_num) ((hpow _ le_rfl).2.trans (by norm_num)) (by linarith) (.node t1 t2)
    (l1 ++ l2) (by simp [OpTree.leaves, g1, g2]) hlen.le
    (by
      intro i hi
      have hb := hMle i hi
      have hi' := hperm.mem_iff.1 hi
      have six : ∀ z : ℝ, 0 ≤ z → 6 * A.u * z ≤ ((1 + A.u) ^ 6 - 1) * z := by
        intro z hz
        apply mul_le_mul_of_nonneg_right _ hz
        have := one_add_mul_le_pow (show (-2 : ℝ) ≤ A.u by linarith) 6
        push_cast at this
        linarith
      match i with
      | none =>
        refine ⟨h1.1, by simp [d, μ], le_rfl, le_rfl, ?_⟩
        change |A.val one - 1| ≤ ((1 + A.u) ^ 6 - 1) * 1 + A.tiny * 9 * 1
        rw [h1.2, sub_self, abs_zero]
        have := six 1 zero_le_one
        linarith
      | some (.inl r) =>
        have hr' : r ∈ reals := by simpa [li, lj] using hi'
        change 4 * (1 + |A.val x - A.val r|) ≤ _ at hb
        obtain ⟨a, b⟩ := A.sub x r hx (hr r hr') (by linarith [abs_nonneg (A.val x - A.val r)])
        refine ⟨a, le_rfl, by change |A.val x - A.val r| ≤ 1 + _; linarith, hM1 (some (.inl r)), ?_⟩
        change |A.val (x - r) - (A.val x - A.val r)| ≤ ((1 + A.u) ^ 6 - 1) * |A.val x - A.val r| + A.tiny * 9 * (1 + |A.val x - A.val r|)
        have s := six |A.val x - A.val r| (abs_nonneg _)
        have p : 0 ≤ A.tiny * 9 * (1 + |A.val x - A.val r|) := by positivity
        have p' : 0 ≤ A.u * |A.val x - A.val r| := by positivity
        linarith
      | some (.inr z) =>
        have hz' : z ∈ pairs := by simpa [li, lj] using hi'
        obtain ⟨a, b⟩ := PolyF.pair_factor A.toFloatArith hu1 ht1 h2 hx (hp z hz').1 (hp z hz').2 hb
        have q0 : 0 ≤ (|A.val x| + |A.val z.re|) ^ 2 + A.val z.im ^ 2 := by positivity
        refine ⟨a, ?_, by change _ ≤ 1 + _; linarith, hM1 (some (.inr z)), ?_⟩
        · change |(A.val x - A.val z.re) ^ 2 + A.val z.im ^ 2| ≤ (|A.val x| + |A.val z.re|) ^ 2 + A.val z.im ^ 2
          rw [abs_of_nonneg (by positivity)]
          have := abs_sub (A.val x) (A.val z.re)
          have := pow_le_pow_left₀ (abs_nonneg _) this 2
          rw [sq_abs] at this
          linarith
        · refine b.trans ?_
          have s := six _ q0
          change _ ≤ ((1 + A.u) ^ 6 - 1) * ((|A.val x| + |A.val z.re|) ^ 2 + A.val z.im ^ 2)
            + A.tiny * 9 * (1 + ((|A.val x| + |A.val z.re|) ^ 2 + A.val z.im ^ 2))
          linarith)
    (by rw [d3]; exact hh)
  have ev : factoredEval red one two reals pairs x = (OpTree.node t1 t2).eval (· * ·) := by
    unfold factoredEval
    simp only [e1, e2, OpTree.eval]
  rw [ev]
  refine ⟨r1, ?_⟩
  rw [d1, d2, d3, hlen] at r2
  refine r2.trans ?_
  obtain ⟨h7, h8⟩ := hpow ((6 + 1) * N - 1) (by omega)
  have m0 : 0 ≤ rootsMagnitude R P (A.val x) := by
    rw [← d2]
    have : 0 ≤ |((l1 ++ l2).map μ).prod| := abs_nonneg _
    have pos : ∀ l : List (Option (F ⊕ Cx F)), 0 ≤ (l.map μ).prod := by
      intro l
      apply List.prod_nonneg
      intro a ha
      obtain ⟨i, -, rfl⟩ := List.mem_map.1 ha
      match i with
      | none => exact zero_le_one
      | some (.inl r) => exact abs_nonneg _
      | some (.inr z) => change 0 ≤ (|A.val x| + |A.val z.re|) ^ 2 + A.val z.im ^ 2; positivity
    exact pos _
  have c0 : 0 ≤ rootsCeiling R P (A.val x) := by
    rw [← d3]
    have := PolyF.prod_one_le (l1 ++ l2) M fun j _ => hM1 j
    linarith
  have k1 := mul_le_mul_of_nonneg_right h7 m0
  have k2 : A.tiny * 9 * (2 * (N : ℝ) - 1) * (1 + A.u) ^ ((6 + 1) * N - 1) ≤ 21 * N * A.tiny := by
    have a : A.tiny * 9 * (2 * (N : ℝ) - 1) * (1 + A.u) ^ ((6 + 1) * N - 1) ≤ A.tiny * 9 * (2 * (N : ℝ) - 1) * (7 / 6) :=
      mul_le_mul_of_nonneg_left h8 (by have : 0 ≤ 2 * (N : ℝ) - 1 := by linarith
                                       positivity)
    have b : 0 ≤ (N : ℝ) * A.tiny := by positivity
    linarith
  have k3 := mul_le_mul_of_nonneg_right k2 c0
  linarith

/-- **C97** if all roots are real the result is accurate to within a relative error of `8 (n + 2) u`, even close to the roots. -/
theorem C97_real_roots (A : FloatArithNeg F) (red : (F → F → F) → F → List F → F) (hred : IsReduction red) (one two : F)
    (h1 : A.finite one ∧ A.val one = 1) (h2 : A.finite two ∧ A.val two = 2) (reals : List F) (x : F)
    (hx : A.finite x) (hr : ∀ r ∈ reals, A.finite r) (N : ℕ) (hN : N = reals.length + 2)
    (hu : 60 * N * A.u ≤ 1) (ht : 18 * A.tiny * (N * N) ≤ 1) (R : List ℝ) (hR : R = reals.map A.val)
    (hh : 4 * (R.map fun r => 1 + |A.val x - r|).prod ≤ A.huge) :
    A.finite (factoredEval red one two reals [] x) ∧
      |A.val (factoredEval red one two reals [] x) - (R.map fun r => A.val x - r).prod| ≤
        8 * N * A.u * |(R.map fun r => A.val x - r).prod| + 21 * N * A.tiny * (R.map fun r => 1 + |A.val x - r|).prod := by
  have := C97_factored A red hred one two h1 h2 reals [] x hx hr (by simp) N (by simpa using hN) hu ht R hR [] (by simp)
    (by simpa [rootsCeiling] using hh)
  have e : ∀ l : List ℝ, (l.map fun r => |A.val x - r|).prod = |(l.map fun r => A.val x - r).prod| := by
    intro l
    induction l with
    | nil => simp
    | cons a l ih => simp only [List.map_cons, List.prod_cons, abs_mul, ih]
  simpa [rootsAt, rootsMagnitude, rootsCeiling, e] using this

namespace PocketF.Example

private theorem val_int (k : ℕ) : fl.val (Bin.int k) = k := by
  change (((k : ℤ) : ℝ)) = _
  simp

private theorem fin_int (k : ℕ) (hk : k ≤ 3) : fl.finite (Bin.int k : Bin 24 (-149)) := by
  have hk' : (k : ℝ) ≤ 3 := by exact_mod_cast hk
  change |(((k : ℤ) : ℝ))| ≤ 2 ^ 128
  simp only [Int.cast_natCast]
  rw [abs_of_nonneg (Nat.cast_nonneg _)]
  refine hk'.trans (by norm_num)

/-- `1 + 2 x` at `x = 3` in `float`: 7 to within `3 / 10^6`. -/
example : |fl.val (polyEval id [(Bin.int 1 : Bin 24 (-149)), Bin.int 2] (Bin.int 3)) - 7| ≤ 3 / 10 ^ 6 := by
  have hu : fl.u = 2 ^ (-(24 : ℤ)) := rfl
  have htn : fl.tiny = 2 ^ (-150 : ℤ) := by change (2 : ℝ) ^ ((-149 : ℤ) - 1) = _; norm_num
  have hhu : fl.huge = 2 ^ 126 := rfl
  have v1 := val_int 1
  have v2 := val_int 2
  have v3 := val_int 3
  have f1 := fin_int 1 (by norm_num)
  have f2 := fin_int 2 (by norm_num)
  have f3 := fin_int 3 (by norm_num)
  norm_num at v1 v2 v3
  norm_num at f1 f2 f3
  obtain ⟨-, h⟩ := C97_real fl [Bin.int 1, Bin.int 2] (Bin.int 3) (by rw [hu]; norm_num) f3 (by
      intro a ha
      simp only [List.mem_cons, List.not_mem_nil, or_false] at ha
      rcases ha with rfl | rfl
      · exact f1
      · exact f2) (by
      intro r hr
      simp only [List.suffix_cons_iff, List.suffix_nil] at hr
      rcases hr with rfl | rfl | rfl <;>
      · simp only [List.map_cons, List.map_nil, List.length_cons, List.length_nil, v1, v2, v3, htn, hhu, polyAt, geometric, sig]
        norm_num [Finset.sum_range_succ])
  have e1 : polyAt ([Bin.int 1, Bin.int 2].map fl.val) (fl.val (Bin.int 3)) = 7 := by
    simp only [List.map_cons, List.map_nil, v1, v2, v3, polyAt, sig]
    norm_num [Finset.sum_range_succ]
  rw [e1] at h
  refine h.trans ?_
  simp only [List.map_cons, List.map_nil, List.length_cons, List.length_nil, v1, v2, v3, htn, hu, polyAt, geometric, sig]
  norm_num [Finset.sum_range_succ]

/-- `1 + 2 x` at `x = 1 + 3 i` in `float`: `3 + 6 i` to within `1 / 10^5`. -/
example : ‖cval fl (polyEval ofReal [(Bin.int 1 : Bin 24 (-149)), Bin.int 2] ⟨Bin.int 1, Bin.int 3⟩) - (⟨3, 6⟩ : ℂ)‖ ≤ 1 / 10 ^ 5 := by
  have hu : fl.u = 2 ^ (-(24 : ℤ)) := rfl
  have htn : fl.tiny = 2 ^ (-150 : ℤ) := by change (2 : ℝ) ^ ((-149 : ℤ) - 1) = _; norm_num
  have hhu : fl.huge = 2 ^ 126 := rfl
  have v1 := val_int 1
  have v2 := val_int 2
  have v3 := val_int 3
  have f1 := fin_int 1 (by norm_num)
  have f2 := fin_int 2 (by norm_num)
  have f3 := fin_int 3 (by norm_num)
  norm_num at v1 v2 v3
  norm_num at f1 f2 f3
  have hz : cval fl ⟨Bin.int 1, Bin.int 3⟩ = (⟨1, 3⟩ : ℂ) := by
    simp only [cval, v1, v3]
  have n4 : ‖(⟨1, 3⟩ : ℂ)‖ ≤ 4 := by
    refine (Complex.norm_le_abs_re_add_abs_im _).trans ?_
    norm_num
  have n0 : 0 ≤ ‖(⟨1, 3⟩ : ℂ)‖ := norm_nonneg _
  obtain ⟨-, h⟩ := C97_complex fl [Bin.int 1, Bin.int 2] ⟨Bin.int 1, Bin.int 3⟩ (by rw [hu]; norm_num) ⟨f1, f3⟩ (by
      intro a ha
      simp only [List.mem_cons, List.not_mem_nil, or_false] at ha
      rcases ha with rfl | rfl
      · exact f1
      · exact f2) (by
      intro r hr
      rw [hz]
      generalize ‖(⟨1, 3⟩ : ℂ)‖ = N at *
      simp only [List.suffix_cons_iff, List.suffix_nil] at hr
      rcases hr with rfl | rfl | rfl <;>
      · simp only [List.map_cons, List.map_nil, List.length_cons, List.length_nil, v1, v2, v3, htn, hhu, polyAt, geometric, sig]
        norm_num [Finset.sum_range_succ]
        try linarith)
  have e1 : polyAt ([Bin.int 1, Bin.int 2].map fun a => ((fl.val a : ℝ) : ℂ)) (⟨1, 3⟩ : ℂ) = ⟨3, 6⟩ := by
    simp only [List.map_cons, List.map_nil, v1, v2, v3, polyAt, sig]
    apply Complex.ext <;> norm_num [Finset.sum_range_succ]
  rw [hz, e1] at h
  refine h.trans ?_
  generalize ‖(⟨1, 3⟩ : ℂ)‖ = N at *
  simp only [List.map_cons, List.map_nil, List.length_cons, List.length_nil, v1, v2, v3, htn, hu, polyAt, geometric, sig]
  norm_num [Finset.sum_range_succ]
  linarith

/-- The polynomial with the roots 2 and `1 ± i` at `x = 3` in `float`: 5 to within `1 / 10^4`. -/
example : |fl.val (factoredEval (fun op init l => l.foldl op init) (Bin.int 1) (Bin.int 2) [(Bin.int 2 : Bin 24 (-149))]
    [⟨Bin.int 1, Bin.int 1⟩] (Bin.int 3)) - 5| ≤ 1 / 10 ^ 4 := by
  have hu : fl.u = 2 ^ (-(24 : ℤ)) := rfl
  have htn : fl.tiny = 2 ^ (-150 : ℤ) := by change (2 : ℝ) ^ ((-149 : ℤ) - 1) = _; norm_num
  have hhu : fl.huge = 2 ^ 126 := rfl
  have v1 := val_int 1
  have v2 := val_int 2
  have v3 := val_int 3
  have f1 := fin_int 1 (by norm_num)
  have f2 := fin_int 2 (by norm_num)
  have f3 := fin_int 3 (by norm_num)
  norm_num at v1 v2 v3
  norm_num at f1 f2 f3
  obtain ⟨-, h⟩ := C97_factored fl (fun op init l => l.foldl op init) isReduction_foldl (Bin.int 1) (Bin.int 2) ⟨f1, v1⟩ ⟨f2, v2⟩
    [Bin.int 2] [⟨Bin.int 1, Bin.int 1⟩] (Bin.int 3) f3 (by simpa using f2)
    (by
      intro z hz
      rw [List.mem_singleton] at hz
      rw [hz]
      exact ⟨f1, f1⟩) 4 rfl (by rw [hu]; norm_num) (by rw [htn]; norm_num)
    [2] (by simp [v2]) [(1, 1)] (by simp [v1]) (by rw [v3, hhu]; norm_num [rootsCeiling])
  have e1 : rootsAt [2] [(1, 1)] (fl.val (Bin.int 3)) = 5 := by
    rw [v3]
    norm_num [rootsAt]
  rw [e1] at h
  refine h.trans ?_
  rw [v3, hu, htn]
  norm_num [rootsMagnitude, rootsCeiling]

end PocketF.Example

end Verif
