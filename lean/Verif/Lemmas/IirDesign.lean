import Verif.Model.IirDesign
import Verif.Props.RootTransforms
import Mathlib.Tactic.FieldSimp
import Mathlib.Tactic.LinearCombination

set_option linter.unusedSimpArgs false
set_option linter.unusedSectionVars false

namespace Verif
open Complex

theorem csqrt_mul_self (z : ℂ) : csqrt z * csqrt z = z := by
  have := Complex.cpow_nat_inv_pow z (n := 2) (by norm_num)
  rw [csqrt, ← pow_two, one_div]
  exact this



/-! ### products over images of roots -/

theorem rootProduct_append (a b : List ℂ) (z : ℂ) : rootProduct (a ++ b) z = rootProduct a z * rootProduct b z := by
  simp [rootProduct]

theorem rootProduct_perm {a b : List ℂ} (h : a.Perm b) (z : ℂ) : rootProduct a z = rootProduct b z :=
  (h.map _).prod_eq

theorem rootProduct_replicate (pads : List ℂ) (z : ℂ) : ∀ n : ℕ,
    rootProduct (List.replicate n pads).flatten z = rootProduct pads z ^ n
  | 0 => by simp [rootProduct]
  | n + 1 => by rw [flatten_replicate_succ, rootProduct_append, rootProduct_replicate pads z n, pow_succ]

theorem rootProduct_flatMap (f : ℂ → List ℂ) (g : ℂ → ℂ) (z m c : ℂ) : ∀ roots : List ℂ,
    (∀ p ∈ roots, rootProduct (f p) z * g p = c * (m - p)) →
    rootProduct (roots.flatMap f) z * (roots.map g).prod = c ^ roots.length * rootProduct roots m
  | [], _ => by simp [rootProduct]
  | p :: roots, h => by
    have ih := rootProduct_flatMap f g z m c roots (fun q hq => h q (by simp [hq]))
    have hp := h p (by simp)
    rw [List.flatMap_cons, rootProduct_append, List.map_cons, List.prod_cons, List.length_cons, pow_succ]
    have e : rootProduct (p :: roots) m = (m - p) * rootProduct roots m := by simp [rootProduct]
    rw [e]
    linear_combination (rootProduct (roots.flatMap f) z * (roots.map g).prod) * hp + c * (m - p) * ih

/-- All roots of a polynomial object. -/
noncomputable def FactoredPoly.roots (p : FactoredPoly) : List ℂ := rootsOf p.realRoots p.complexPairs

theorem roots_length {p : FactoredPoly} (h : p.Reachable) : p.roots.length = p.numRoots := by
  rw [FactoredPoly.roots, rootsOf_length, realRoots_length (C27_reachable_wf h), complexPairs_length]; rfl

/-- The value of the transformed polynomial, up to the factors that the gain has to make up for. -/
theorem transformed_value {poly : FactoredPoly} (hp : poly.Reachable) {func : ℂ → List ℂ} {N : ℕ}
    {pads : List ℂ} {q : FactoredPoly} (hN : poly.numRoots ≤ N)
    (hq : q.roots.Perm (poly.roots.flatMap func ++
      (List.replicate ((if N = 0 then poly.numRoots else N) - poly.numRoots) pads).flatten))
    {g : ℂ → ℂ} {z m c a : ℂ} (hg : ∀ p ∈ poly.roots, rootProduct (func p) z * g p = c * (m - p))
    (ha : poly.numRoots = N ∨ rootProduct pads z * a = c) :
    rootProduct q.roots z * (poly.roots.map g).prod * a ^ (N - poly.numRoots) = c ^ N * rootProduct poly.roots m := by
  have e : (if N = 0 then poly.numRoots else N) - poly.numRoots = N - poly.numRoots := by split <;> omega
  rw [e] at hq
  rw [rootProduct_perm hq, rootProduct_append, rootProduct_replicate]
  have h1 := rootProduct_flatMap func g z m c poly.roots hg
  rw [roots_length hp] at h1
  have h2 : (rootProduct pads z) ^ (N - poly.numRoots) * a ^ (N - poly.numRoots) = c ^ (N - poly.numRoots) := by
    rcases ha with h | h
    · rw [h]; simp
    · rw [← mul_pow, h]
  have h3 : c ^ N = c ^ poly.numRoots * c ^ (N - poly.numRoots) := by rw [← pow_add]; congr 1; omega
  rw [h3]
  linear_combination (c ^ (N - poly.numRoots)) * h1 +
    (rootProduct (poly.roots.flatMap func) z * (poly.roots.map g).prod) * h2

theorem prod_ofReal_conj (g : ℂ → ℂ) (rg : ℝ → ℝ) (cg : ℂ → ℝ) (hr : ∀ r : ℝ, ((rg r : ℝ) : ℂ) = g r)
    (hc : ∀ z : ℂ, ((cg z : ℝ) : ℂ) = g z * g ((starRingEnd ℂ) z)) (poly : FactoredPoly) :
    ((transformGain poly rg cg : ℝ) : ℂ) = (poly.roots.map g).prod := by
  unfold transformGain FactoredPoly.roots rootsOf
  rw [foldl_mul_eq_prod, foldl_mul_eq_prod]
  simp only [ofReal_mul, List.map_append, List.prod_append, List.map_map]
  have h1 : ∀ l : List ℝ, (((l.map rg).prod : ℝ) : ℂ) = (l.map (g ∘ ofReal)).prod := by
    intro l
    induction l with
    | nil => simp
    | cons r l ih => simp only [List.map_cons, List.prod_cons, ofReal_mul, ih, hr]; rfl
  have h2 : ∀ l : List ℂ, (((l.map cg).prod : ℝ) : ℂ) = (l.map g).prod * (l.map (g ∘ (starRingEnd ℂ))).prod := by
    intro l
    induction l with
    | nil => simp
    | cons r l ih =>
      simp only [List.map_cons, List.prod_cons, ofReal_mul, ih, hc, Function.comp_apply]
      ring
  rw [h1, h2]
  ring

theorem zpk_value (s : Zpk) (x : ℂ) : s.eval x =
    s.gain * rootProduct s.zeros.roots x / rootProduct s.poles.roots x := C24_zpk_value s x

theorem rootProduct_ne_zero {l : List ℂ} {x : ℂ} (h : ∀ p ∈ l, p ≠ x) : rootProduct l x ≠ 0 := by
  unfold rootProduct
  intro h0
  rw [List.prod_eq_zero_iff] at h0
  obtain ⟨p, hp, h1⟩ := List.mem_map.1 h0
  exact h p hp (sub_eq_zero.1 h1).symm

theorem prod_ne_zero_of {l : List ℂ} {g : ℂ → ℂ} (h : ∀ p ∈ l, g p ≠ 0) : (l.map g).prod ≠ 0 := by
  intro h0
  rw [List.prod_eq_zero_iff] at h0
  obtain ⟨p, hp, h1⟩ := List.mem_map.1 h0
  exact h p hp h1

/-- The pieces that the two band transforms and the bilinear transform have in common. -/
theorem mapped_system {order : ℕ} {sys : Zpk} (hs : sys.Reachable) (func : ℂ → List ℂ) (pads : List ℂ)
    (hlen : ∀ z, (func z).length = order) (hpad : pads.length = order) (hfunc : RespectsConjugation func)
    (hpads : ConjugateClosed pads) :
    ∃ nz np : FactoredPoly,
      transformRoots order sys.zeros func (max sys.zeros.numRoots sys.poles.numRoots) pads = .ok nz ∧
      transformRoots order sys.poles func (max sys.zeros.numRoots sys.poles.numRoots) pads = .ok np ∧
      nz.Reachable ∧ np.Reachable ∧
      nz.numRoots = order * sys.order ∧ np.numRoots = order * sys.order ∧
      (sys.zeros.numRoots ≤ sys.poles.numRoots → np.roots.Perm (sys.poles.roots.flatMap func)) ∧
      (∀ q ∈ nz.roots, (∃ p ∈ sys.zeros.roots, q ∈ func p) ∨ q ∈ pads) ∧
      ∀ (g : ℂ → ℂ) (z m c a : ℂ),
        (∀ p ∈ sys.zeros.roots, rootProduct (func p) z * g p = c * (m - p)) →
        (∀ p ∈ sys.poles.roots, rootProduct (func p) z * g p = c * (m - p)) →
        (sys.zeros.numRoots = sys.poles.numRoots ∨ rootProduct pads z * a = c) →
        rootProduct nz.roots z * (sys.zeros.roots.map g).prod * a ^ (sys.order - sys.zeros.numRoots) =
            c ^ sys.order * rootProduct sys.zeros.roots m ∧
        rootProduct np.roots z * (sys.poles.roots.map g).prod * a ^ (sys.order - sys.poles.numRoots) =
            c ^ sys.order * rootProduct sys.poles.roots m := by
  obtain ⟨nz, a1, a2, a3, a4⟩ := C60_roots order sys.zeros func (max sys.zeros.numRoots sys.poles.numRoots) pads hlen hpad
    hfunc hpads (Or.inr (le_max_left _ _))
  obtain ⟨np, b1, b2, b3, b4⟩ := C60_roots order sys.poles func (max sys.zeros.numRoots sys.poles.numRoots) pads hlen hpad
    hfunc hpads (Or.inr (le_max_right _ _))
  refine ⟨nz, np, a1, b1, a2, b2, ?_, ?_, ?_, ?_, ?_⟩
  · rw [a4 hs.1]; congr 1; unfold Zpk.order; split <;> omega
  · rw [b4 hs.2]; congr 1; unfold Zpk.order; split <;> omega
  · intro h
    have e : (if max sys.zeros.numRoots sys.poles.numRoots = 0 then sys.poles.numRoots
        else max sys.zeros.numRoots sys.poles.numRoots) - sys.poles.numRoots = 0 := by split <;> omega
    rw [e] at b3
    simpa [FactoredPoly.roots] using b3
  · intro q hq
    have := (a3.mem_iff).1 hq
    rcases List.mem_append.1 this with h | h
    · exact .inl (List.mem_flatMap.1 h)
    · right
      obtain ⟨l, hl, hq'⟩ := List.mem_flatten.1 h
      rw [List.eq_of_mem_replicate hl] at hq'
      exact hq'
  · intro g z m c a h1 h2 h3
    exact ⟨transformed_value hs.1 (le_max_left _ _) a3 h1 (h3.imp (by omega) id),
      transformed_value hs.2 (le_max_right _ _) b3 h2 (h3.imp (by omega) id)⟩

/-! ### bilinear transform -/

theorem bilinear_respects (k : ℝ) : RespectsConjugation fun p => [((k : ℂ) + p) / ((k : ℂ) - p)] := by
  intro z
  simp [map_div₀]

theorem bilinear_spec {sys : Zpk} (hs : sys.Reachable) (fs : ℝ) (prewarp : Option ℝ) (k : ℝ)
    (hk : bilinearFactor fs prewarp = .ok k) :
    ∃ d, bilinearTransform sys fs prewarp = .ok d ∧ d.Reachable ∧ d.zeros.numRoots = sys.order ∧
      d.poles.numRoots = sys.order ∧
      (sys.zeros.numRoots ≤ sys.poles.numRoots →
        d.poles.roots.Perm (sys.poles.roots.map fun p => ((k : ℂ) + p) / ((k : ℂ) - p))) ∧
      (∀ q ∈ d.zeros.roots, (∃ p ∈ sys.zeros.roots, q = ((k : ℂ) + p) / ((k : ℂ) - p)) ∨ q = -1) ∧
      ((∀ p ∈ sys.zeros.roots, p ≠ k) → (∀ p ∈ sys.poles.roots, p ≠ k) → ∀ z : ℂ, z ≠ -1 →
        d.eval z = sys.eval ((k : ℂ) * (z - 1) / (z + 1))) := by
  obtain ⟨nz, np, h1, h2, h3, h4, h5, h6, h7, hzs, h8⟩ := mapped_system (order := 1) hs
    (fun p => [((k : ℂ) + p) / ((k : ℂ) - p)]) [-1] (fun _ => rfl) rfl (bilinear_respects k) (by simp [ConjugateClosed])
  refine ⟨⟨sys.eval k, nz, np⟩, ?_, ⟨h3, h4⟩, by rw [h5, one_mul], by rw [h6, one_mul], ?_, ?_, ?_⟩
  · unfold bilinearTransform
    rw [hk, Out.ok_bind]
    simp only
    rw [h1, Out.ok_bind, h2, Out.ok_bind]
    rfl
  · intro h
    have := h7 h
    simpa [List.flatMap_singleton', ← List.map_eq_flatMap] using this
  · intro q hq
    simpa using hzs q hq
  · intro hz hp z hz1
    have hz1' : z + 1 ≠ 0 := fun h => hz1 (eq_neg_of_add_eq_zero_left h)
    have key : ∀ p : ℂ, p ≠ k → rootProduct [((k : ℂ) + p) / ((k : ℂ) - p)] z * ((k : ℂ) - p) =
        (z + 1) * ((k : ℂ) * (z - 1) / (z + 1) - p) := by
      intro p hpk
      have : (k : ℂ) - p ≠ 0 := sub_ne_zero.2 (Ne.symm hpk)
      simp only [rootProduct, List.map_cons, List.map_nil, List.prod_cons, List.prod_nil]
      field_simp
      ring
    obtain ⟨e1, e2⟩ := h8 (fun p => (k : ℂ) - p) z ((k : ℂ) * (z - 1) / (z + 1)) (z + 1) 1
      (fun p h => key p (hz p h)) (fun p h => key p (hp p h)) (Or.inr (by simp [rootProduct]))
    have gz : rootProduct sys.zeros.roots k ≠ 0 := rootProduct_ne_zero hz
    have gp : rootProduct sys.poles.roots k ≠ 0 := rootProduct_ne_zero hp
    have hc : (z + 1) ^ sys.order ≠ 0 := pow_ne_zero _ hz1'
    rw [one_pow, mul_one] at e1 e2
    change rootProduct nz.roots z * rootProduct sys.zeros.roots k = _ at e1
    change rootProduct np.roots z * rootProduct sys.poles.roots k = _ at e2
    rw [zpk_value, zpk_value]
    simp only
    have eg : ((sys.eval k : ℝ) : ℂ) = sys.gain * rootProduct sys.zeros.roots k / rootProduct sys.poles.roots k := by
      rw [← zpk_value]
      simp only [Zpk.eval]
      rw [ofReal_div, ofReal_mul, eval_ofReal, eval_ofReal]
      rfl
    rw [eg, eq_div_of_mul_eq gz e1, eq_div_of_mul_eq gp e2]
    by_cases hP : rootProduct sys.poles.roots ((k : ℂ) * (z - 1) / (z + 1)) = 0
    · rw [hP]; simp
    · field_simp

/-! ### band transforms -/

/-- The factor by which the gain is off: none, unless there are more zeros than poles, where the exponent
underflows. -/
noncomputable def gainError (sys : Zpk) (a0 : ℝ) : ℝ :=
  if sys.zeros.numRoots ≤ sys.poles.numRoots then 1 else a0 ^ (2 ^ 64)

/-- BandTransforms.hpp:42-43, 49 -/
noncomputable def mappedGain (sys : Zpk) (a0 : ℝ) (rg : ℝ → ℝ) (cg : ℂ → ℝ) : ℝ :=
  (if usub sys.poles.numRoots sys.zeros.numRoots ≠ 0 then a0 ^ usub sys.poles.numRoots sys.zeros.numRoots else 1) *
    sys.gain * transformGain sys.zeros rg cg / transformGain sys.poles rg cg

theorem mapped_gain {sys : Zpk} {nz np : FactoredPoly} {g : ℂ → ℂ} {rg : ℝ → ℝ} {cg : ℂ → ℝ} {a0 : ℝ} {c m z : ℂ}
    (hr : ∀ r : ℝ, ((rg r : ℝ) : ℂ) = g r) (hcg : ∀ z : ℂ, ((cg z : ℝ) : ℂ) = g z * g ((starRingEnd ℂ) z))
    (e1 : rootProduct nz.roots z * (sys.zeros.roots.map g).prod * (a0 : ℂ) ^ (sys.order - sys.zeros.numRoots) =
            c ^ sys.order * rootProduct sys.zeros.roots m)
    (e2 : rootProduct np.roots z * (sys.poles.roots.map g).prod * (a0 : ℂ) ^ (sys.order - sys.poles.numRoots) =
            c ^ sys.order * rootProduct sys.poles.roots m) (hc : c ≠ 0)
    (hz : ∀ p ∈ sys.zeros.roots, g p ≠ 0) (hp : ∀ p ∈ sys.poles.roots, g p ≠ 0)
    (ha : sys.zeros.numRoots = sys.poles.numRoots ∨ a0 ≠ 0)
    (hsize : sys.zeros.numRoots < sys.poles.numRoots + 2 ^ 64) :
    (⟨mappedGain sys a0 rg cg, nz, np⟩ : Zpk).eval z = gainError sys a0 * sys.eval m := by
  rw [zpk_value, zpk_value]
  simp only
  unfold mappedGain
  have gz : (sys.zeros.roots.map g).prod ≠ 0 := prod_ne_zero_of hz
  have gp : (sys.poles.roots.map g).prod ≠ 0 := prod_ne_zero_of hp
  rw [ofReal_div, ofReal_mul, prod_ofReal_conj g rg cg hr hcg, prod_ofReal_conj g rg cg hr hcg, ofReal_mul]
  have hcN : c ^ sys.order ≠ 0 := pow_ne_zero _ hc
  rcases lt_trichotomy sys.zeros.numRoots sys.poles.numRoots with h | h | h
  · have ha0 : (a0 : ℂ) ≠ 0 := by
      rcases ha with h' | h'
      · omega
      · exact_mod_cast h'
    have e : sys.order = sys.poles.numRoots := by unfold Zpk.order; omega
    rw [e] at e1 e2 hcN
    rw [Nat.sub_self, pow_zero, mul_one] at e2
    rw [usub_eq (by omega), if_pos (by omega), gainError, if_pos h.le, ofReal_one, one_mul, ofReal_pow]
    have hk : (a0 : ℂ) ^ (sys.poles.numRoots - sys.zeros.numRoots) ≠ 0 := pow_ne_zero _ ha0
    rw [eq_div_of_mul_eq hk e1 |> eq_div_of_mul_eq gz, eq_div_of_mul_eq gp e2]
    by_cases hP : rootProduct sys.poles.roots m = 0
    · rw [hP]; simp
    · field_simp
  · have e : sys.order = sys.poles.numRoots := by unfold Zpk.order; omega
    rw [e] at e1 e2 hcN
    rw [h, Nat.sub_self, pow_zero, mul_one] at e1
    rw [Nat.sub_self, pow_zero, mul_one] at e2
    rw [usub_eq (by omega), if_neg (by omega), gainError, if_pos h.le, ofReal_one, one_mul, one_mul]
    rw [eq_div_of_mul_eq gz e1, eq_div_of_mul_eq gp e2]
    by_cases hP : rootProduct sys.poles.roots m = 0
    · rw [hP]; simp
    · field_simp
  · have ha0 : (a0 : ℂ) ≠ 0 := by
      rcases ha with h' | h'
      · omega
      · exact_mod_cast h'
    have e : sys.order = sys.zeros.numRoots := by unfold Zpk.order; omega
    rw [e] at e1 e2 hcN
    rw [Nat.sub_self, pow_zero, mul_one] at e1
    have hu : usub sys.poles.numRoots sys.zeros.numRoots = sys.poles.numRoots + 2 ^ 64 - sys.zeros.numRoots := by
      rw [usub, if_neg (by omega)]
    rw [hu, if_pos (by omega), gainError, if_neg (by omega), ofReal_pow, ofReal_pow]
    have hk : (a0 : ℂ) ^ (sys.zeros.numRoots - sys.poles.numRoots) ≠ 0 := pow_ne_zero _ ha0
    rw [eq_div_of_mul_eq gz e1, eq_div_of_mul_eq hk e2 |> eq_div_of_mul_eq gp]
    have hsplit : (a0 : ℂ) ^ (2 ^ 64) = (a0 : ℂ) ^ (sys.poles.numRoots + 2 ^ 64 - sys.zeros.numRoots) *
        (a0 : ℂ) ^ (sys.zeros.numRoots - sys.poles.numRoots) := by
      rw [← pow_add]; congr 1; omega
    rw [hsplit]
    by_cases hP : rootProduct sys.poles.roots m = 0
    · rw [hP]; simp
    · field_simp

/-- BandTransforms.hpp:14-16 -/
noncomputable def mapPoint1 (s a0 a1 : ℝ) (z : ℂ) : ℂ :=
  (s : ℂ) * ((a1 : ℂ) * z + (a0 : ℂ)) / ((a1 : ℂ) + (a0 : ℂ) * z)

theorem mapZDomain1_spec {sys : Zpk} (hs : sys.Reachable) (s a0 a1 : ℝ) :
    ∃ d, mapZDomain1 sys s a0 a1 = .ok d ∧ d.Reachable ∧ d.zeros.numRoots = sys.order ∧ d.poles.numRoots = sys.order ∧
      (sys.zeros.numRoots ≤ sys.poles.numRoots → d.poles.roots.Perm (sys.poles.roots.map fun p =>
        (-((a1 : ℂ) * p) + (a0 : ℂ) * (s : ℂ)) / ((a0 : ℂ) * p - (a1 : ℂ) * (s : ℂ)))) ∧
      ((∀ p ∈ sys.zeros.roots, (a1 * s : ℂ) - p * a0 ≠ 0) → (∀ p ∈ sys.poles.roots, (a1 * s : ℂ) - p * a0 ≠ 0) →
        (sys.zeros.numRoots = sys.poles.numRoots ∨ a0 ≠ 0) → sys.zeros.numRoots < sys.poles.numRoots + 2 ^ 64 →
        ∀ z : ℂ, (a1 : ℂ) + a0 * z ≠ 0 → d.eval z = gainError sys a0 * sys.eval (mapPoint1 s a0 a1 z)) := by
  obtain ⟨nz, np, h1, h2, h3, h4, h5, h6, h7, hzs, h8⟩ := mapped_system (order := 1) hs
    (fun p => [(-((a1 : ℂ) * p) + (a0 : ℂ) * (s : ℂ)) / ((a0 : ℂ) * p - (a1 : ℂ) * (s : ℂ))])
    [((-(a1 / a0) : ℝ) : ℂ)] (fun _ => rfl) rfl (by intro z; simp [map_div₀])
    (by simp [ConjugateClosed, map_div₀])
  refine ⟨⟨mappedGain sys a0 (fun p => a1 * s - p * a0) (fun p =>
    (((a1 : ℂ) * (s : ℂ) - p * (a0 : ℂ)) * ((a1 : ℂ) * (s : ℂ) - (starRingEnd ℂ) p * (a0 : ℂ))).re), nz, np⟩, ?_,
    ⟨h3, h4⟩, by rw [h5, one_mul], by rw [h6, one_mul], ?_, ?_⟩
  · unfold mapZDomain1
    simp only
    rw [h1, Out.ok_bind, h2, Out.ok_bind]
    rfl
  · intro h
    have := h7 h
    simpa [← List.map_eq_flatMap] using this
  · intro hz hp ha hsize z hc
    have key : ∀ p : ℂ, (a1 * s : ℂ) - p * a0 ≠ 0 →
        rootProduct [(-((a1 : ℂ) * p) + (a0 : ℂ) * (s : ℂ)) / ((a0 : ℂ) * p - (a1 : ℂ) * (s : ℂ))] z *
          ((a1 : ℂ) * (s : ℂ) - p * (a0 : ℂ)) = ((a1 : ℂ) + a0 * z) * (mapPoint1 s a0 a1 z - p) := by
      intro p hpk
      have h' : (a0 : ℂ) * p - (a1 : ℂ) * (s : ℂ) ≠ 0 := by
        intro h; apply hpk; linear_combination -h
      have e : (-((a1 : ℂ) * p) + (a0 : ℂ) * (s : ℂ)) / ((a0 : ℂ) * p - (a1 : ℂ) * (s : ℂ)) *
          ((a1 : ℂ) * (s : ℂ) - p * (a0 : ℂ)) = (a1 : ℂ) * p - (a0 : ℂ) * (s : ℂ) := by
        rw [div_mul_eq_mul_div, div_eq_iff h']; ring
      have e' : ((a1 : ℂ) + a0 * z) * mapPoint1 s a0 a1 z = (s : ℂ) * ((a1 : ℂ) * z + (a0 : ℂ)) := by
        rw [mapPoint1, mul_div_cancel₀ _ hc]
      simp only [rootProduct, List.map_cons, List.map_nil, List.prod_cons, List.prod_nil]
      linear_combination -e - e'
    obtain ⟨e1, e2⟩ := h8 (fun p => (a1 : ℂ) * (s : ℂ) - p * (a0 : ℂ)) z (mapPoint1 s a0 a1 z) ((a1 : ℂ) + a0 * z) a0
      (fun p h => key p (hz p h)) (fun p h => key p (hp p h)) (ha.imp id (fun h => by
        have : (a0 : ℂ) ≠ 0 := by exact_mod_cast h
        simp only [rootProduct, List.map_cons, List.map_nil, List.prod_cons, List.prod_nil, ofReal_neg, ofReal_div]
        field_simp
        ring))
    apply mapped_gain _ _ e1 e2 hc hz hp ha hsize
    · intro r; push_cast; ring
    · intro w
      apply Complex.ext
      · simp
      · simp
        ring

/-- BandTransforms.hpp:19-21 -/
noncomputable def mapPoint2 (s a0 a1 a2 : ℝ) (z : ℂ) : ℂ :=
  (s : ℂ) * ((a2 : ℂ) * z * z + (a1 : ℂ) * z + (a0 : ℂ)) / ((a2 : ℂ) + (a1 : ℂ) * z + (a0 : ℂ) * z * z)

/-- BandTransforms.hpp:63-68 -/
noncomputable def mapRoot2 (s a0 a1 a2 : ℝ) (p : ℂ) : List ℂ :=
  [-(((a1 : ℂ) * p - (a1 : ℂ) * (s : ℂ) + csqrt (((a1 : ℂ) * p - (a1 : ℂ) * (s : ℂ)) * ((a1 : ℂ) * p - (a1 : ℂ) * (s : ℂ)) +
      4 * ((a2 : ℂ) * p - (a0 : ℂ) * (s : ℂ)) * (-((a0 : ℂ) * p) + (a2 : ℂ) * (s : ℂ)))) /
        (2 * (a0 : ℂ) * p - 2 * (a2 : ℂ) * (s : ℂ))),
   -(((a1 : ℂ) * p - (a1 : ℂ) * (s : ℂ) - csqrt (((a1 : ℂ) * p - (a1 : ℂ) * (s : ℂ)) * ((a1 : ℂ) * p - (a1 : ℂ) * (s : ℂ)) +
      4 * ((a2 : ℂ) * p - (a0 : ℂ) * (s : ℂ)) * (-((a0 : ℂ) * p) + (a2 : ℂ) * (s : ℂ)))) /
        (2 * (a0 : ℂ) * p - 2 * (a2 : ℂ) * (s : ℂ)))]

/-- Square roots of conjugates are conjugates up to sign. -/
theorem csqrt_conj (z : ℂ) : csqrt ((starRingEnd ℂ) z) = (starRingEnd ℂ) (csqrt z) ∨
    csqrt ((starRingEnd ℂ) z) = -(starRingEnd ℂ) (csqrt z) := by
  have h1 := csqrt_mul_self ((starRingEnd ℂ) z)
  have h2 : (starRingEnd ℂ) (csqrt z) * (starRingEnd ℂ) (csqrt z) = (starRingEnd ℂ) z := by
    rw [← map_mul, csqrt_mul_self]
  have h3 : (csqrt ((starRingEnd ℂ) z) - (starRingEnd ℂ) (csqrt z)) *
      (csqrt ((starRingEnd ℂ) z) + (starRingEnd ℂ) (csqrt z)) = 0 := by linear_combination h1 - h2
  rcases mul_eq_zero.1 h3 with h | h
  · exact .inl (sub_eq_zero.1 h)
  · exact .inr (eq_neg_of_add_eq_zero_left h)

theorem mapRoot2_respects (s a0 a1 a2 : ℝ) : RespectsConjugation (mapRoot2 s a0 a1 a2) := by
  intro z
  unfold mapRoot2
  simp only [List.map_cons, List.map_nil, map_neg, map_div₀, map_add, map_sub, map_mul, conj_ofReal,
    map_ofNat]
  have h := csqrt_conj (((a1 : ℂ) * z - (a1 : ℂ) * (s : ℂ)) * ((a1 : ℂ) * z - (a1 : ℂ) * (s : ℂ)) +
      4 * ((a2 : ℂ) * z - (a0 : ℂ) * (s : ℂ)) * (-((a0 : ℂ) * z) + (a2 : ℂ) * (s : ℂ)))
  simp only [map_neg, map_div₀, map_add, map_sub, map_mul, conj_ofReal, map_ofNat] at h
  rcases h with h | h
  · rw [h]
  · rw [h, ← sub_eq_add_neg, sub_neg_eq_add]
    exact List.Perm.swap _ _ _

theorem pads2_closed (a0 a1 a2 : ℝ) : ConjugateClosed
    [(-(a1 : ℂ) - csqrt ((a1 * a1 - 4 * a0 * a2 : ℝ) : ℂ)) / ((2 * a0 : ℝ) : ℂ),
     (-(a1 : ℂ) + csqrt ((a1 * a1 - 4 * a0 * a2 : ℝ) : ℂ)) / ((2 * a0 : ℝ) : ℂ)] := by
  unfold ConjugateClosed
  simp only [List.map_cons, List.map_nil, map_neg, map_div₀, map_add, map_sub, conj_ofReal]
  have h := csqrt_conj ((a1 * a1 - 4 * a0 * a2 : ℝ) : ℂ)
  rw [conj_ofReal] at h
  rcases h with h | h
  · rw [← h]
  · have h' : (starRingEnd ℂ) (csqrt ((a1 * a1 - 4 * a0 * a2 : ℝ) : ℂ)) = -csqrt ((a1 * a1 - 4 * a0 * a2 : ℝ) : ℂ) := by
      rw [eq_neg_iff_add_eq_zero, add_comm, ← eq_neg_iff_add_eq_zero]
      exact h
    rw [h', ← sub_eq_add_neg, sub_neg_eq_add]
    exact List.Perm.swap _ _ _

theorem mapRoot2_product (s a0 a1 a2 : ℝ) (p z : ℂ) (hg : (a2 * s : ℂ) - p * a0 ≠ 0) :
    rootProduct (mapRoot2 s a0 a1 a2 p) z * ((a2 : ℂ) * (s : ℂ) - p * (a0 : ℂ)) =
      (s : ℂ) * ((a2 : ℂ) * z * z + (a1 : ℂ) * z + (a0 : ℂ)) - p * ((a2 : ℂ) + (a1 : ℂ) * z + (a0 : ℂ) * z * z) := by
  have hd : 2 * (a0 : ℂ) * p - 2 * (a2 : ℂ) * (s : ℂ) ≠ 0 := by
    intro h; apply hg; linear_combination -h / 2
  unfold mapRoot2
  have hr := csqrt_mul_self (((a1 : ℂ) * p - (a1 : ℂ) * (s : ℂ)) * ((a1 : ℂ) * p - (a1 : ℂ) * (s : ℂ)) +
      4 * ((a2 : ℂ) * p - (a0 : ℂ) * (s : ℂ)) * (-((a0 : ℂ) * p) + (a2 : ℂ) * (s : ℂ)))
  generalize csqrt (((a1 : ℂ) * p - (a1 : ℂ) * (s : ℂ)) * ((a1 : ℂ) * p - (a1 : ℂ) * (s : ℂ)) +
      4 * ((a2 : ℂ) * p - (a0 : ℂ) * (s : ℂ)) * (-((a0 : ℂ) * p) + (a2 : ℂ) * (s : ℂ))) = r at hr
  simp only [rootProduct, List.map_cons, List.map_nil, List.prod_cons, List.prod_nil, mul_one]
  obtain ⟨d, hdd⟩ : ∃ d, d = 2 * (a0 : ℂ) * p - 2 * (a2 : ℂ) * (s : ℂ) := ⟨_, rfl⟩
  rw [← hdd] at hd ⊢
  obtain ⟨u, hu⟩ : ∃ u, u = ((a1 : ℂ) * p - (a1 : ℂ) * (s : ℂ) + r) / d := ⟨_, rfl⟩
  obtain ⟨v, hv⟩ : ∃ v, v = ((a1 : ℂ) * p - (a1 : ℂ) * (s : ℂ) - r) / d := ⟨_, rfl⟩
  rw [← hu, ← hv]
  have hu' : u * d = (a1 : ℂ) * p - (a1 : ℂ) * (s : ℂ) + r := by rw [hu, div_mul_cancel₀ _ hd]
  have hv' : v * d = (a1 : ℂ) * p - (a1 : ℂ) * (s : ℂ) - r := by rw [hv, div_mul_cancel₀ _ hd]
  have huv : u * v * d = -2 * ((a2 : ℂ) * p - (a0 : ℂ) * (s : ℂ)) * (-1) := by
    apply mul_right_cancel₀ hd
    linear_combination (v * d) * hu' + ((a1 : ℂ) * p - (a1 : ℂ) * (s : ℂ) + r) * hv' - hr -
      2 * ((a2 : ℂ) * p - (a0 : ℂ) * (s : ℂ)) * hdd
  linear_combination (-1/2) * huv - z / 2 * hu' - z / 2 * hv' + (z * u / 2 + z * v / 2 + u * v / 2) * hdd

theorem mapZDomain2_spec {sys : Zpk} (hs : sys.Reachable) (s a0 a1 a2 : ℝ) :
    ∃ d, mapZDomain2 sys s a0 a1 a2 = .ok d ∧ d.Reachable ∧ d.zeros.numRoots = 2 * sys.order ∧
      d.poles.numRoots = 2 * sys.order ∧
      (sys.zeros.numRoots ≤ sys.poles.numRoots → d.poles.roots.Perm (sys.poles.roots.flatMap (mapRoot2 s a0 a1 a2))) ∧
      ((∀ p ∈ sys.zeros.roots, (a2 * s : ℂ) - p * a0 ≠ 0) → (∀ p ∈ sys.poles.roots, (a2 * s : ℂ) - p * a0 ≠ 0) →
        (sys.zeros.numRoots = sys.poles.numRoots ∨ a0 ≠ 0) → sys.zeros.numRoots < sys.poles.numRoots + 2 ^ 64 →
        ∀ z : ℂ, (a2 : ℂ) + (a1 : ℂ) * z + (a0 : ℂ) * z * z ≠ 0 →
          d.eval z = gainError sys a0 * sys.eval (mapPoint2 s a0 a1 a2 z)) := by
  obtain ⟨nz, np, h1, h2, h3, h4, h5, h6, h7, hzs, h8⟩ := mapped_system (order := 2) hs (mapRoot2 s a0 a1 a2)
    [(-(a1 : ℂ) - csqrt ((a1 * a1 - 4 * a0 * a2 : ℝ) : ℂ)) / ((2 * a0 : ℝ) : ℂ),
     (-(a1 : ℂ) + csqrt ((a1 * a1 - 4 * a0 * a2 : ℝ) : ℂ)) / ((2 * a0 : ℝ) : ℂ)] (fun _ => rfl) rfl
    (mapRoot2_respects s a0 a1 a2) (pads2_closed a0 a1 a2)
  refine ⟨⟨mappedGain sys a0 (fun p => a2 * s - p * a0) (fun p =>
    (((a2 : ℂ) * (s : ℂ) - p * (a0 : ℂ)) * ((a2 : ℂ) * (s : ℂ) - (starRingEnd ℂ) p * (a0 : ℂ))).re), nz, np⟩, ?_,
    ⟨h3, h4⟩, h5, h6, h7, ?_⟩
  · unfold mapZDomain2
    simp only
    change (transformRoots 2 sys.zeros (mapRoot2 s a0 a1 a2) _ _ >>= fun _ =>
      transformRoots 2 sys.poles (mapRoot2 s a0 a1 a2) _ _ >>= fun _ => _) = _
    rw [h1, Out.ok_bind, h2, Out.ok_bind]
    rfl
  · intro hz hp ha hsize z hc
    have key : ∀ p : ℂ, (a2 * s : ℂ) - p * a0 ≠ 0 →
        rootProduct (mapRoot2 s a0 a1 a2 p) z * ((a2 : ℂ) * (s : ℂ) - p * (a0 : ℂ)) =
          ((a2 : ℂ) + (a1 : ℂ) * z + (a0 : ℂ) * z * z) * (mapPoint2 s a0 a1 a2 z - p) := by
      intro p hpk
      have e' : ((a2 : ℂ) + (a1 : ℂ) * z + (a0 : ℂ) * z * z) * mapPoint2 s a0 a1 a2 z =
          (s : ℂ) * ((a2 : ℂ) * z * z + (a1 : ℂ) * z + (a0 : ℂ)) := by
        rw [mapPoint2, mul_div_cancel₀ _ hc]
      rw [mapRoot2_product s a0 a1 a2 p z hpk]
      linear_combination -e'
    obtain ⟨e1, e2⟩ := h8 (fun p => (a2 : ℂ) * (s : ℂ) - p * (a0 : ℂ)) z (mapPoint2 s a0 a1 a2 z) _ a0
      (fun p h => key p (hz p h)) (fun p h => key p (hp p h)) (ha.imp id (fun h => by
        have : (a0 : ℂ) ≠ 0 := by exact_mod_cast h
        have hr := csqrt_mul_self ((a1 * a1 - 4 * a0 * a2 : ℝ) : ℂ)
        generalize csqrt ((a1 * a1 - 4 * a0 * a2 : ℝ) : ℂ) = r at hr
        push_cast at hr
        simp only [rootProduct, List.map_cons, List.map_nil, List.prod_cons, List.prod_nil, mul_one]
        push_cast
        field_simp
        linear_combination (-1 : ℂ) * hr))
    apply mapped_gain _ _ e1 e2 hc hz hp ha hsize
    · intro r; push_cast; ring
    · intro w
      apply Complex.ext
      · simp
      · simp
        ring

/-! ### stability -/

theorem normSq_map1 (s a0 a1 : ℝ) (hs : s * s = 1) (p : ℂ) :
    normSq ((a0 : ℂ) * p - (a1 : ℂ) * (s : ℂ)) - normSq (-((a1 : ℂ) * p) + (a0 : ℂ) * (s : ℂ)) =
      (a1 ^ 2 - a0 ^ 2) * (1 - normSq p) := by
  simp [normSq_apply]
  linear_combination (a1 ^ 2 - a0 ^ 2) * hs

theorem norm_lt_one_iff (z : ℂ) : ‖z‖ < 1 ↔ normSq z < 1 := by
  rw [← sq_lt_one_iff₀ (norm_nonneg z), Complex.normSq_eq_norm_sq]

/-- Poles inside the unit circle stay there. -/
theorem map1_stable {s a0 a1 : ℝ} (hs : s * s = 1) (h : a0 ^ 2 < a1 ^ 2) {p : ℂ} (hp : ‖p‖ < 1) :
    ‖(-((a1 : ℂ) * p) + (a0 : ℂ) * (s : ℂ)) / ((a0 : ℂ) * p - (a1 : ℂ) * (s : ℂ))‖ < 1 := by
  rw [norm_lt_one_iff] at hp ⊢
  have e := normSq_map1 s a0 a1 hs p
  have hpos : 0 < (a1 ^ 2 - a0 ^ 2) * (1 - normSq p) := mul_pos (by linarith) (by linarith)
  have h0 := normSq_nonneg (-((a1 : ℂ) * p) + (a0 : ℂ) * (s : ℂ))
  rw [normSq_div, div_lt_one (by linarith)]
  linarith

/-- The divisors that appear are not zero for roots in the closed unit disk. -/
theorem map1_gain_ne {s a0 a1 : ℝ} (hs : s * s = 1) (h : a0 ^ 2 < a1 ^ 2) {p : ℂ} (hp : ‖p‖ ≤ 1) :
    (a1 * s : ℂ) - p * a0 ≠ 0 := by
  intro h0
  have h1 : (a1 : ℂ) * s = p * a0 := sub_eq_zero.1 h0
  have h2 := congrArg (fun z => ‖z‖ ^ 2) h1
  simp only [norm_mul, Complex.norm_real, Real.norm_eq_abs, mul_pow, sq_abs] at h2
  have h3 : ‖p‖ ^ 2 ≤ 1 := pow_le_one₀ (norm_nonneg _) hp
  have h4 : s ^ 2 = 1 := by rw [pow_two]; exact hs
  rw [h4, mul_one] at h2
  nlinarith [sq_nonneg a0]

theorem normSq_map2 (a0 a1 a2 : ℝ) (z : ℂ) :
    normSq ((a2 : ℂ) * z * z + (a1 : ℂ) * z + (a0 : ℂ)) - normSq ((a2 : ℂ) + (a1 : ℂ) * z + (a0 : ℂ) * z * z) =
      (normSq z - 1) * ((a2 - a0) * ((a2 + a0) * (normSq z + 1) + 2 * a1 * z.re)) := by
  simp [normSq_apply]
  ring

/-- For a stable second order all-pass, points outside the open disk are mapped outside. -/
theorem map2_outside {a0 a1 a2 : ℝ} (h : a0 ^ 2 < a2 ^ 2) (h1 : a1 ^ 2 < (a2 + a0) ^ 2) {z : ℂ} (hz : 1 ≤ ‖z‖) :
    normSq ((a2 : ℂ) + (a1 : ℂ) * z + (a0 : ℂ) * z * z) ≤ normSq ((a2 : ℂ) * z * z + (a1 : ℂ) * z + (a0 : ℂ)) ∧
      (a2 : ℂ) * z * z + (a1 : ℂ) * z + (a0 : ℂ) ≠ 0 := by
  have hn : 1 ≤ normSq z := by rw [Complex.normSq_eq_norm_sq]; exact one_le_pow₀ hz
  have e := normSq_map2 a0 a1 a2 z
  have hre : z.re ^ 2 ≤ normSq z := by rw [normSq_apply]; nlinarith [sq_nonneg z.im]
  -- the bracket has the sign of `a2 + a0`
  have hb : 0 < (a2 + a0) * ((a2 + a0) * (normSq z + 1) + 2 * a1 * z.re) := by
    have k1 : (2 * z.re) ^ 2 ≤ (normSq z + 1) ^ 2 := by nlinarith [sq_nonneg (normSq z - 1)]
    have k2 : |2 * z.re| ≤ normSq z + 1 := by
      have := sq_le_sq.1 k1
      rwa [abs_of_nonneg (a := normSq z + 1) (by linarith)] at this
    have k3 : |a1| < |a2 + a0| := sq_lt_sq.1 h1
    have k4 : |(a2 + a0) * (a1 * (2 * z.re))| < |a2 + a0| * |a2 + a0| * (normSq z + 1) := by
      rw [abs_mul, abs_mul, mul_assoc]
      apply mul_lt_mul_of_pos_left _ (lt_of_le_of_lt (abs_nonneg _) k3)
      calc |a1| * |2 * z.re| ≤ |a1| * (normSq z + 1) := mul_le_mul_of_nonneg_left k2 (abs_nonneg _)
        _ < |a2 + a0| * (normSq z + 1) := mul_lt_mul_of_pos_right k3 (by linarith)
    have k5 := neg_abs_le ((a2 + a0) * (a1 * (2 * z.re)))
    rw [abs_mul_abs_self] at k4
    nlinarith
  have hd : 0 < (a2 - a0) * (a2 + a0) := by nlinarith
  have hprod : 0 < (a2 - a0) * ((a2 + a0) * (normSq z + 1) + 2 * a1 * z.re) := by
    have : 0 < ((a2 - a0) * (a2 + a0)) * ((a2 + a0) * ((a2 + a0) * (normSq z + 1) + 2 * a1 * z.re)) := mul_pos hd hb
    have h4 : 0 < (a2 + a0) ^ 2 := lt_of_le_of_lt (sq_nonneg _) h1
    have h5 : ((a2 - a0) * (a2 + a0)) * ((a2 + a0) * ((a2 + a0) * (normSq z + 1) + 2 * a1 * z.re)) =
        (a2 + a0) ^ 2 * ((a2 - a0) * ((a2 + a0) * (normSq z + 1) + 2 * a1 * z.re)) := by ring
    rw [h5] at this
    exact (mul_pos_iff_of_pos_left h4).1 this
  have hge : 0 ≤ (normSq z - 1) * ((a2 - a0) * ((a2 + a0) * (normSq z + 1) + 2 * a1 * z.re)) :=
    mul_nonneg (by linarith) hprod.le
  refine ⟨by linarith, fun h0 => ?_⟩
  have h00 : normSq ((a2 : ℂ) * z * z + (a1 : ℂ) * z + (a0 : ℂ)) = 0 := by rw [h0]; simp
  have hD := normSq_nonneg ((a2 : ℂ) + (a1 : ℂ) * z + (a0 : ℂ) * z * z)
  have hD0 : normSq ((a2 : ℂ) + (a1 : ℂ) * z + (a0 : ℂ) * z * z) = 0 := by linarith
  have hDz : (a2 : ℂ) + (a1 : ℂ) * z + (a0 : ℂ) * z * z = 0 := normSq_eq_zero.1 hD0
  have hdiff : ((a2 : ℂ) - a0) * (z * z - 1) = 0 := by linear_combination h0 - hDz
  have ha : (a2 : ℂ) - a0 ≠ 0 := by
    intro h'
    have : a2 - a0 = 0 := by exact_mod_cast h'
    rw [this] at hd; simp at hd
  have hzz : (z - 1) * (z + 1) = 0 := by
    have := (mul_eq_zero.1 hdiff).resolve_left ha
    linear_combination this
  rcases mul_eq_zero.1 hzz with hz1 | hz1
  · have : z = 1 := by linear_combination hz1
    rw [this] at h0
    have : a2 + a1 + a0 = 0 := by
      have := h0; push_cast at this
      have h' : ((a2 + a1 + a0 : ℝ) : ℂ) = 0 := by push_cast; linear_combination this
      exact_mod_cast h'
    have : a1 = -(a2 + a0) := by linarith
    rw [this, neg_sq] at h1
    exact lt_irrefl _ h1
  · have : z = -1 := by linear_combination hz1
    rw [this] at h0
    have : a2 - a1 + a0 = 0 := by
      have h' : ((a2 - a1 + a0 : ℝ) : ℂ) = 0 := by push_cast; linear_combination h0
      exact_mod_cast h'
    have : a1 = a2 + a0 := by linarith
    rw [this] at h1
    exact lt_irrefl _ h1

theorem map2_gain_ne {s a0 a2 : ℝ} (hs : s * s = 1) (h : a0 ^ 2 < a2 ^ 2) {p : ℂ} (hp : ‖p‖ ≤ 1) :
    (a2 * s : ℂ) - p * a0 ≠ 0 := map1_gain_ne hs h hp

/-- Poles inside the unit circle stay there. -/
theorem map2_stable {s a0 a1 a2 : ℝ} (hs : s * s = 1) (h : a0 ^ 2 < a2 ^ 2) (h1 : a1 ^ 2 < (a2 + a0) ^ 2) {p q : ℂ}
    (hp : ‖p‖ < 1) (hq : q ∈ mapRoot2 s a0 a1 a2 p) : ‖q‖ < 1 := by
  by_contra hn
  push Not at hn
  have hg := map2_gain_ne hs h hp.le
  have e := mapRoot2_product s a0 a1 a2 p q hg
  have hz : rootProduct (mapRoot2 s a0 a1 a2 p) q = 0 := by
    unfold rootProduct
    rw [List.prod_eq_zero_iff]
    exact List.mem_map.2 ⟨q, hq, by ring⟩
  rw [hz, zero_mul] at e
  obtain ⟨k1, k2⟩ := map2_outside h h1 hn
  have e' : (s : ℂ) * ((a2 : ℂ) * q * q + (a1 : ℂ) * q + (a0 : ℂ)) =
      p * ((a2 : ℂ) + (a1 : ℂ) * q + (a0 : ℂ) * q * q) := by linear_combination -e
  have e2 := congrArg normSq e'
  rw [normSq_mul, normSq_mul, normSq_ofReal, hs, one_mul] at e2
  have hpos : 0 < normSq ((a2 : ℂ) * q * q + (a1 : ℂ) * q + (a0 : ℂ)) := normSq_pos.2 k2
  rw [norm_lt_one_iff] at hp
  nlinarith [normSq_nonneg p]

end Verif
