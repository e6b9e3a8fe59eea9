import Verif.Lemmas.Realizations
import Verif.Props.IirFilter
import Mathlib.Tactic.NormNum

/-!
# Properties C24–C27: polynomials given by roots and system representations (exact arithmetic)
-/

set_option linter.unusedSimpArgs false

namespace Verif
open Complex

/-! ### C26: construction and evaluation -/

/-- **C26**: constructing a polynomial from roots succeeds exactly on lists closed under conjugation (with
multiplicities); every other list is rejected by an exception. -/
theorem C26_accepts_iff (roots : List ℂ) :
    ((∃ p, FactoredPoly.ofRoots roots = .ok p) ↔ ConjugateClosed roots) ∧
    (¬ ConjugateClosed roots → FactoredPoly.ofRoots roots = .throws) := by
  refine ⟨⟨fun ⟨p, hp⟩ => ?_, fun h => ?_⟩, ofRoots_throws⟩
  · by_contra h
    rw [ofRoots_throws h] at hp
    cases hp
  · obtain ⟨p, hp, _⟩ := ofRoots_ok h
    exact ⟨p, hp⟩

/-- **C26**: the polynomial constructed from roots has exactly those roots, and its value everywhere is the
product of the distances to them. -/
theorem C26_roots (roots : List ℂ) (p : FactoredPoly) (h : FactoredPoly.ofRoots roots = .ok p) :
    (rootsOf p.realRoots p.complexPairs).Perm roots ∧ p.numRoots = roots.length ∧
      (∀ x : ℂ, p.eval x = rootProduct roots x) ∧ ∀ x : ℝ, ((p.eval x : ℝ) : ℂ) = rootProduct roots x := by
  have hc := (C26_accepts_iff roots).1.1 ⟨p, h⟩
  obtain ⟨p', h1, h2, h3, h4⟩ := ofRoots_ok hc
  rw [h] at h1
  cases h1
  have hperm : (rootsOf p.realRoots p.complexPairs).Perm roots := by
    rw [h3, h4]; exact conjClosed_split hc
  have hx : ∀ x : ℂ, p.eval x = rootProduct roots x := by
    intro x
    rw [eval_eq_rootProduct]
    exact (hperm.map _).prod_eq
  refine ⟨hperm, ?_, hx, fun x => by rw [eval_ofReal, hx]⟩
  rw [← hperm.length_eq, rootsOf_length, realRoots_length h2, complexPairs_length]
  rfl

/-- **C26**: real roots keep their order, and each pair is represented by its member in the upper half plane,
again in the order given. -/
theorem C26_order (roots : List ℂ) (p : FactoredPoly) (h : FactoredPoly.ofRoots roots = .ok p) :
    p.realRoots.map ofReal = roots.filter (fun z => decide (z.im = 0)) ∧
      p.complexPairs = roots.filter fun z => decide (0 < z.im) := by
  obtain ⟨p', h1, h2, h3, h4⟩ := ofRoots_ok ((C26_accepts_iff roots).1.1 ⟨p, h⟩)
  rw [h] at h1
  cases h1
  refine ⟨?_, ?_⟩
  · rw [h3]
    unfold realPart
    rw [List.map_map]
    have e : roots.filter (fun z => decide (z.im = 0)) =
        roots.filter (fun z => @decide (z.im = 0) (Classical.propDecidable _)) := by
      apply List.filter_congr; intro z _; simp
    rw [e]
    conv_rhs => rw [← List.map_id (roots.filter _)]
    apply List.map_congr_left
    intro z hz
    simp only [List.mem_filter, decide_eq_true_eq] at hz
    apply Complex.ext <;> simp [hz.2]
  · rw [h4]
    unfold upperPart
    apply List.filter_congr; intro z _; simp

/-- Non-vacuity of C26: `[2, 1 - i, 1 + i]` is accepted, `[2, 1 + i]` is rejected. -/
example : (∃ p, FactoredPoly.ofRoots [2, ⟨1, -1⟩, ⟨1, 1⟩] = .ok p) ∧
    FactoredPoly.ofRoots [2, ⟨1, 1⟩] = .throws := by
  refine ⟨(C26_accepts_iff _).1.2 ?_, (C26_accepts_iff _).2 ?_⟩
  · have h1 : (starRingEnd ℂ) ⟨1, -1⟩ = (⟨1, 1⟩ : ℂ) := by apply Complex.ext <;> simp
    have h2 : (starRingEnd ℂ) ⟨1, 1⟩ = (⟨1, -1⟩ : ℂ) := by apply Complex.ext <;> simp
    have h3 : (starRingEnd ℂ) 2 = 2 := map_ofNat _ 2
    simp only [ConjugateClosed, List.map_cons, List.map_nil, h1, h2, h3]
    exact List.Perm.cons _ (List.Perm.swap _ _ _)
  · intro h
    have hm : (starRingEnd ℂ) ⟨1, 1⟩ ∈ ([2, ⟨1, 1⟩] : List ℂ) := h.subset (by simp)
    simp only [List.mem_cons, List.not_mem_nil, or_false] at hm
    rcases hm with h | h <;> have := congrArg Complex.im h <;> norm_num at this

/-! ### C27: changing the layout -/

/-- The polynomials that a client can get through the public interface. -/
inductive FactoredPoly.Reachable : FactoredPoly → Prop
  | empty : Reachable FactoredPoly.empty
  | ofRoots {roots p} : FactoredPoly.ofRoots roots = .ok p → Reachable p
  | resize {p p' n m r c} : Reachable p → p.resize n m r c = .ok p' → Reachable p'
  | regroup {p p' n r c} : Reachable p → p.regroup n r c = .ok p' → Reachable p'
  | setReal {p p' i r} : Reachable p → p.setReal i r = .ok p' → Reachable p'
  | setPair {p p' i z} : Reachable p → p.setPair i z = .ok p' → Reachable p'

theorem storeV_length {mem mem' v : List ℝ} {p : ℕ} (h : storeV mem p v = .ok mem') : mem'.length = mem.length := by
  unfold storeV at h
  split at h
  · cases h; simp; omega
  · cases h

theorem moveRange_length {mem mem' : List ℝ} {a b c : ℕ} (h : moveRange mem a b c = .ok mem') :
    mem'.length = mem.length := by
  unfold moveRange at h
  rw [Out.bind_eq_ok] at h
  obtain ⟨v, -, h⟩ := h
  exact storeV_length h

theorem moveBackward_length {mem mem' : List ℝ} {a b c : ℕ} (h : moveBackward mem a b c = .ok mem') :
    mem'.length = mem.length := by
  unfold moveBackward at h
  split at h
  · exact moveRange_length h
  · cases h

theorem ite_length {c : Prop} [Decidable c] {x : Out (List ℝ)} {mem mem' : List ℝ}
    (h : (if c then x else pure mem) = .ok mem') (hx : x = .ok mem' → mem'.length = mem.length) :
    mem'.length = mem.length := by
  split at h
  · exact hx h
  · cases h; rfl

theorem resize_WF {p p' : FactoredPoly} {n m : ℕ} {r : ℝ} {c : ℂ} (h : p.resize n m r c = .ok p') :
    p'.WF ∧ p'.numReal = n ∧ p'.numPairs = m := by
  unfold FactoredPoly.resize at h
  rw [Out.bind_eq_ok] at h; obtain ⟨m1, h1, h⟩ := h
  simp only at h
  rw [Out.bind_eq_ok] at h; obtain ⟨m2, h2, h⟩ := h
  rw [Out.bind_eq_ok] at h; obtain ⟨m3, h3, h⟩ := h
  rw [Out.bind_eq_ok] at h; obtain ⟨m4, h4, h⟩ := h
  cases h
  have e2 := ite_length h2 moveBackward_length
  have e3 := ite_length h3 storeV_length
  have e4 := ite_length h4 storeV_length
  rw [resizeZ_length] at e2
  exact ⟨by rw [FactoredPoly.WF]; simp only; omega, rfl, rfl⟩

theorem regroup_WF {p p' : FactoredPoly} {n : ℕ} {r : ℝ} {c : ℂ} (hp : p.WF) (h : p.regroup n r c = .ok p') :
    p'.WF ∧ p'.numReal = n ∧ p'.numRoots = p.numRoots := by
  have h' := h
  unfold FactoredPoly.regroup at h
  rw [Out.bind_eq_ok] at h; obtain ⟨_, h1, h⟩ := h
  rw [Out.bind_eq_ok] at h; obtain ⟨_, h2, h⟩ := h
  rw [require_eq_ok] at h1 h2
  obtain ⟨q, e1, e2⟩ := regroup_relaid hp n r c h1 h2
  rw [h'] at e1
  cases e1
  refine ⟨e2.wf, e2.nr, ?_⟩
  rw [FactoredPoly.numRoots, e2.nr, e2.np]
  omega

/-- The representation invariant holds in every reachable state. -/
theorem C27_reachable_wf {p : FactoredPoly} (h : p.Reachable) : p.WF := by
  induction h with
  | empty => rfl
  | ofRoots h =>
    obtain ⟨p', h1, h2, _⟩ := ofRoots_ok ((C26_accepts_iff _).1.1 ⟨_, h⟩)
    rw [h] at h1; cases h1; exact h2
  | resize _ h _ => exact (resize_WF h).1
  | regroup _ h ih => exact (regroup_WF ih h).1
  | @setReal p p' i r _ h ih =>
    by_cases hi : i < p.numReal
    · obtain ⟨q, e1, e2, _⟩ := setReal_spec ih hi r
      rw [h] at e1; cases e1; exact e2
    · rw [FactoredPoly.setReal, if_neg hi] at h; cases h
  | @setPair p p' i z _ h ih =>
    by_cases hi : i < p.numPairs
    · obtain ⟨q, e1, e2, _⟩ := setPair_spec ih hi z
      rw [h] at e1; cases e1; exact e2
    · rw [FactoredPoly.setPair, if_neg hi] at h; cases h

/-- **C27**: `regroup` keeps the number of roots, the leading real roots and the leading pairs, and fills the
rest with the given values; it throws exactly when the requested number of real roots is impossible. -/
theorem C27_regroup {p : FactoredPoly} (hp : p.Reachable) (n : ℕ) (rv : ℝ) (cv : ℂ) :
    (n % 2 = p.numRoots % 2 ∧ n ≤ p.numRoots → ∃ p', p.regroup n rv cv = .ok p' ∧
      p'.numRoots = p.numRoots ∧ p'.realRoots.length = n ∧
      p'.realRoots = p.realRoots.take n ++ List.replicate (n - p.realRoots.length) rv ∧
      p'.complexPairs = p.complexPairs.take ((p.numRoots - n) / 2) ++
        List.replicate ((p.numRoots - n) / 2 - p.complexPairs.length) cv) ∧
    (¬ (n % 2 = p.numRoots % 2 ∧ n ≤ p.numRoots) → p.regroup n rv cv = .throws) := by
  have hwf := C27_reachable_wf hp
  constructor
  · rintro ⟨h1, h2⟩
    obtain ⟨q, e1, e2⟩ := regroup_relaid hwf n rv cv h1 h2
    have e3 := (regroup_WF hwf e1)
    refine ⟨q, e1, e3.2.2, by rw [realRoots_length e2.wf, e2.nr], ?_, ?_⟩
    · rw [realRoots_length hwf]; exact e2.reals
    · rw [complexPairs_length]; exact e2.pairs
  · intro h
    unfold FactoredPoly.regroup
    by_cases h1 : n % 2 = p.numRoots % 2
    · rw [require_true h1, Out.ok_bind, require, if_neg (by tauto)]; rfl
    · rw [require, if_neg h1]; rfl

/-- **C27**, the part that holds of `resize`: if the number of real roots does not grow, or there were none,
the leading real roots and the leading pairs are kept and the rest is filled.  Missing: growing a nonempty set of
real roots, for which the claim is false (`C27_resize_wrong`). -/
theorem C27_resize_partial {p : FactoredPoly} (hp : p.Reachable) (n m : ℕ) (rv : ℝ) (cv : ℂ)
    (h : n ≤ p.realRoots.length ∨ p.realRoots = []) :
    ∃ p', p.resize n m rv cv = .ok p' ∧
      p'.realRoots = p.realRoots.take n ++ List.replicate (n - p.realRoots.length) rv ∧
      p'.complexPairs = p.complexPairs.take m ++ List.replicate (m - p.complexPairs.length) cv := by
  have hwf := C27_reachable_wf hp
  have hr := realRoots_length hwf
  obtain ⟨q, e1, e2⟩ := resize_relaid hwf n m rv cv (by
    rcases h with h | h
    · exact .inl (by omega)
    · exact .inr (by rw [← hr, h]; rfl))
  refine ⟨q, e1, ?_, ?_⟩
  · rw [hr]; exact e2.reals
  · rw [complexPairs_length]; exact e2.pairs

/-- **C27** fails for `resize`: adding a real root to the polynomial with roots `1, ±i` turns the pair `±i` into
the double root `1`; and enlarging two real roots to three is undefined behaviour. -/
theorem C27_resize_wrong :
    (∃ p p' : FactoredPoly, p.Reachable ∧ p.realRoots = [1] ∧ p.complexPairs = [I] ∧
      p.resize 2 1 0 0 = .ok p' ∧ p'.complexPairs = [1]) ∧
    ∃ p : FactoredPoly, p.Reachable ∧ p.realRoots = [1, 2] ∧ p.complexPairs = [] ∧ p.resize 3 0 0 0 = .ub := by
  constructor
  · have hc : ConjugateClosed [1, I, -I] := by
      simp only [ConjugateClosed, List.map_cons, List.map_nil, map_one, conj_I, map_neg, neg_neg]
      exact List.Perm.cons _ (List.Perm.swap _ _ _)
    obtain ⟨p, h1, h2, h3, h4⟩ := ofRoots_ok hc
    have hr : p.realRoots = [1] := by rw [h3]; simp [realPart]
    have hcp : p.complexPairs = [I] := by rw [h4]; simp [upperPart]
    have hn : p.numReal = 1 := by rw [← realRoots_length h2, hr]; rfl
    have hm : p.numPairs = 1 := by rw [← complexPairs_length, hcp]; rfl
    obtain ⟨mem, a, b⟩ := p
    simp only at hn hm
    subst hn hm
    have hl : mem.length = 3 := h2
    obtain ⟨x, y, z, rfl⟩ : ∃ x y z, mem = [x, y, z] := by
      match mem, hl with
      | [x, y, z], _ => exact ⟨x, y, z, rfl⟩
    have hx : x = 1 := by simpa [FactoredPoly.realRoots] using hr
    have hyz : y = 0 ∧ z = 1 := by
      have : (⟨y, z⟩ : ℂ) = I := by simpa [FactoredPoly.complexPairs, sig] using hcp
      exact ⟨by simpa using congrArg Complex.re this, by simpa using congrArg Complex.im this⟩
    obtain ⟨rfl, rfl⟩ := hyz
    subst hx
    refine ⟨_, ⟨[1, 0, 1, 0], 2, 1⟩, .ofRoots h1, hr, hcp, ?_, ?_⟩
    · simp [FactoredPoly.resize, resizeZ, moveBackward, moveRange, loadV, storeV]
    · simp only [FactoredPoly.complexPairs, List.range_one, List.map_cons, List.map_nil, sig]
      congr 1
  · have hc : ConjugateClosed [1, 2] := by
      simp [ConjugateClosed, show (starRingEnd ℂ) 2 = 2 from map_ofNat _ 2]
    obtain ⟨p, h1, h2, h3, h4⟩ := ofRoots_ok hc
    have hr : p.realRoots = [1, 2] := by rw [h3]; simp [realPart]
    have hcp : p.complexPairs = [] := by rw [h4]; simp [upperPart]
    have hn : p.numReal = 2 := by rw [← realRoots_length h2, hr]; rfl
    have hm : p.numPairs = 0 := by rw [← complexPairs_length, hcp]; rfl
    refine ⟨p, .ofRoots h1, hr, hcp, ?_⟩
    simp [FactoredPoly.resize, hn, moveBackward]

/-- Non-vacuity of C27: regrouping `1, 2, 3` to one real root. -/
example : ∃ p p' : FactoredPoly, p.Reachable ∧ p.realRoots = [1, 2, 3] ∧
    p.regroup 1 0 I = .ok p' ∧ p'.realRoots = [1] ∧ p'.complexPairs = [I] := by
  have hc : ConjugateClosed [1, 2, 3] := by
    simp [ConjugateClosed, show (starRingEnd ℂ) 2 = 2 from map_ofNat _ 2, show (starRingEnd ℂ) 3 = 3 from map_ofNat _ 3]
  obtain ⟨p, h1, h2, h3, h4⟩ := ofRoots_ok hc
  have hr : p.realRoots = [1, 2, 3] := by rw [h3]; simp [realPart]
  have hcp : p.complexPairs = [] := by rw [h4]; simp [upperPart]
  have hn : p.numRoots = 3 := by rw [(C26_roots _ _ h1).2.1]; rfl
  obtain ⟨p', e1, e2, e3, e4, e5⟩ := (C27_regroup (.ofRoots h1) 1 0 I).1 (by rw [hn]; decide)
  refine ⟨p, p', .ofRoots h1, hr, e1, ?_, ?_⟩
  · rw [e4, hr]; rfl
  · rw [e5, hcp, hn]; rfl

/-! ### C24: transfer functions -/

/-- The systems that a client can build. -/
def Zpk.Reachable (s : Zpk) : Prop := s.zeros.Reachable ∧ s.poles.Reachable

/-- The value of a zero/pole/gain object is that of the system with those roots. -/
theorem C24_zpk_value (s : Zpk) (x : ℂ) : s.eval x =
    systemValue s.gain (rootsOf s.zeros.realRoots s.zeros.complexPairs)
      (rootsOf s.poles.realRoots s.poles.complexPairs) x := by
  unfold Zpk.eval systemValue
  rw [eval_eq_rootProduct, eval_eq_rootProduct]
  rfl

theorem polyEval_scale {U : Type} [CommRing U] [Algebra ℝ U] (c : List ℝ) (g : ℝ) (x : U) :
    polyEval (algebraMap ℝ U) (c.map fun a => a * g) x = algebraMap ℝ U g * polyEval (algebraMap ℝ U) c x := by
  rw [polyEval_sum, polyEval_sum, List.length_map, Finset.mul_sum]
  apply Finset.sum_congr rfl
  intro i hi
  rw [Finset.mem_range] at hi
  have : sig (c.map fun a => a * g) i = sig c i * g := by simp [sig, hi]
  rw [this, map_mul]
  ring

/-- **C24**: expanding any system to a transfer function succeeds, and the two have the same numerator, the same
denominator and hence the same value at every complex point; the order is the same too. -/
theorem C24_transferFunction (s : Zpk) (hs : s.Reachable) :
    ∃ sys, TransferFn.ofZpk s = .ok sys ∧ sys.order = s.order ∧
      (∀ x : ℂ, polyEval ofReal sys.num x =
        s.gain * rootProduct (rootsOf s.zeros.realRoots s.zeros.complexPairs) x) ∧
      (∀ x : ℂ, polyEval ofReal sys.den x = rootProduct (rootsOf s.poles.realRoots s.poles.complexPairs) x) ∧
      (∀ x : ℂ, sys.eval x = s.eval x) ∧ ∀ x : ℝ, sys.eval x = s.eval x := by
  obtain ⟨cn, a1, a2, a3⟩ := expandPolynomial_coeffs (C27_reachable_wf hs.1)
  obtain ⟨cd, b1, b2, b3⟩ := expandPolynomial_coeffs (C27_reachable_wf hs.2)
  have hn : ∀ {U : Type} [CommRing U] [Algebra ℝ U] (x : U), polyEval (algebraMap ℝ U) cn x = s.zeros.eval x :=
    fun x => by rw [polyEval_eq x cn _ a3, aeval_rootPoly]
  have hd : ∀ {U : Type} [CommRing U] [Algebra ℝ U] (x : U), polyEval (algebraMap ℝ U) cd x = s.poles.eval x :=
    fun x => by rw [polyEval_eq x cd _ b3, aeval_rootPoly]
  have hv : ∀ {U : Type} [Field U] [Algebra ℝ U] (x : U),
      (⟨cn.map fun c => c * s.gain, cd⟩ : TransferFn ℝ).eval x = s.eval x := by
    intro U _ _ x
    unfold TransferFn.eval Zpk.eval
    simp only
    rw [polyEval_scale, hn, hd]
  refine ⟨⟨cn.map fun c => c * s.gain, cd⟩, ?_, ?_, ?_, ?_, hv, hv⟩
  · unfold TransferFn.ofZpk
    rw [a1, Out.ok_bind, b1, Out.ok_bind]; rfl
  · simp [TransferFn.order, polyOrder, Zpk.order, a2, b2]
  · intro x
    have := polyEval_scale cn s.gain x
    rw [hn, eval_eq_rootProduct] at this
    exact this
  · intro x
    have := hd x
    rw [eval_eq_rootProduct] at this
    exact this

/-- A concrete reachable system: zero `1`, poles `±i`, gain `3`. -/
theorem example_zpk : ∃ s : Zpk, s.Reachable ∧ s.gain = 3 ∧ s.zeros.realRoots = [1] ∧ s.zeros.complexPairs = [] ∧
    s.poles.realRoots = [] ∧ s.poles.complexPairs = [I] := by
  have hc : ConjugateClosed [I, -I] := by
    simp only [ConjugateClosed, List.map_cons, List.map_nil, conj_I, map_neg, neg_neg]
    exact List.Perm.swap _ _ _
  have hc' : ConjugateClosed [1] := by simp [ConjugateClosed]
  obtain ⟨p, h1, h2, h3, h4⟩ := ofRoots_ok hc
  obtain ⟨z, g1, g2, g3, g4⟩ := ofRoots_ok hc'
  refine ⟨⟨3, z, p⟩, ⟨.ofRoots g1, .ofRoots h1⟩, rfl, ?_, ?_, ?_, ?_⟩
  · simp only; rw [g3]; simp [realPart]
  · simp only; rw [g4]; simp [upperPart]
  · simp only; rw [h3]; simp [realPart]
  · simp only; rw [h4]; simp [upperPart]

example : ∃ (s : Zpk) (sys : TransferFn ℝ), s.Reachable ∧ TransferFn.ofZpk s = .ok sys ∧
    sys.eval (2 : ℂ) = 3 / 5 := by
  obtain ⟨s, hs, h1, h2, h3, h4, h5⟩ := example_zpk
  obtain ⟨sys, e1, -, -, -, e2, -⟩ := C24_transferFunction s hs
  refine ⟨s, sys, hs, e1, ?_⟩
  rw [e2, C24_zpk_value, h1, h2, h3, h4, h5]
  simp only [systemValue, rootsOf, rootProduct, List.map_cons, List.map_nil, List.append_nil, List.nil_append,
    List.cons_append, List.prod_cons, List.prod_nil, conj_I]
  have : ((2 : ℂ) - I) * ((2 - -I) * 1) = 5 := by
    apply Complex.ext <;> norm_num
  rw [this]
  norm_num

/-! ### C25: cascades of second order sections -/

/-- **C25**, the part that holds: a system with at least one zero or pole is split into `⌈order/2⌉` sections whose
product has the value of the system at every point, whatever order the sort leaves equal elements in.  Missing:
systems without zeros and poles (`C25_constant_wrong`). -/
theorem C25_value_partial (sort : List Poly3 → List Poly3) (hsort : ∀ l, (sort l).Perm l) (s : Zpk)
    (hs : s.Reachable) (h0 : s.order ≠ 0) :
    ∃ secs, cascadedBiquad sort s = .ok secs ∧ secs.length = (s.order + 1) / 2 ∧
      (∀ x : ℂ, evalBiquads secs x = .ok (systemValue s.gain (rootsOf s.zeros.realRoots s.zeros.complexPairs)
        (rootsOf s.poles.realRoots s.poles.complexPairs) x)) ∧
      ∀ x : ℝ, evalBiquads secs x = .ok (s.eval x) := by
  obtain ⟨secs, h1, h2, -, h3, -⟩ := cascadedBiquad_spec (U := ℂ) sort hsort s (C27_reachable_wf hs.1)
    (C27_reachable_wf hs.2)
  obtain ⟨secs', g1, -, -, g3, -⟩ := cascadedBiquad_spec (U := ℝ) sort hsort s (C27_reachable_wf hs.1)
    (C27_reachable_wf hs.2)
  rw [h1] at g1
  cases g1
  exact ⟨secs, h1, h2, fun x => by rw [h3 h0, C24_zpk_value], g3 h0⟩

/-- **C25** fails for systems without zeros and poles: the gain is lost, the cascade is the identity. -/
theorem C25_constant_wrong (sort : List Poly3 → List Poly3) (hsort : ∀ l, (sort l).Perm l) (s : Zpk)
    (hs : s.Reachable) (h0 : s.order = 0) (x : ℂ) :
    ∃ secs, cascadedBiquad sort s = .ok secs ∧ evalBiquads secs x = .ok 1 ∧ s.eval x = s.gain := by
  obtain ⟨secs, h1, -, -, -, h3, -⟩ := cascadedBiquad_spec (U := ℂ) sort hsort s (C27_reachable_wf hs.1)
    (C27_reachable_wf hs.2)
  refine ⟨secs, h1, by rw [h3 h0]; rfl, ?_⟩
  have hz : s.zeros.numReal = 0 ∧ s.zeros.numPairs = 0 := by
    unfold Zpk.order FactoredPoly.numRoots at h0; omega
  have hp : s.poles.numReal = 0 ∧ s.poles.numPairs = 0 := by
    unfold Zpk.order FactoredPoly.numRoots at h0; omega
  unfold Zpk.eval FactoredPoly.eval
  simp [FactoredPoly.realRoots, FactoredPoly.complexPairs, hz, hp]

/-- **C25**: the order that the cascade reports is one more than that of the system. -/
theorem C25_order (sort : List Poly3 → List Poly3) (hsort : ∀ l, (sort l).Perm l) (s : Zpk)
    (hs : s.Reachable) (h0 : s.order ≠ 0) (secs : List (Biquad ℝ)) (h : cascadedBiquad sort s = .ok secs) :
    biquadsOrder secs = s.order + 1 := by
  obtain ⟨secs', h1, -, h3, -⟩ := cascadedBiquad_spec (U := ℂ) sort hsort s (C27_reachable_wf hs.1)
    (C27_reachable_wf hs.2)
  rw [h] at h1
  cases h1
  exact h3 h0

/-- **C20–C25 together**: filtering any input with the direct forms of the transfer function and with the cascade
of second order sections of the same zero/pole/gain system, each realization created with the order that the
system reports, gives the same output, namely the response of the transfer function. -/
theorem C25_realizations_agree (sort : List Poly3 → List Poly3) (hsort : ∀ l, (sort l).Perm l) (s : Zpk)
    (hs : s.Reachable) (h0 : s.order ≠ 0) (x : List ℝ) :
    ∃ sys secs y s1 s2 s3, TransferFn.ofZpk s = .ok sys ∧ cascadedBiquad sort s = .ok secs ∧
      DirectFormI.feed sys x (DirectFormI.make sys.order) = .ok (y, s1) ∧
      DirectFormII.feed sys x (DirectFormII.make sys.order) = .ok (y, s2) ∧
      CascadedForm.feed secs x (CascadedForm.make (biquadsOrder secs)) = .ok (y, s3) ∧
      IsResponse sys.num sys.den x y := by
  have hz := C27_reachable_wf hs.1
  have hp := C27_reachable_wf hs.2
  obtain ⟨sys, a1, a2, -⟩ := C24_transferFunction s hs
  obtain ⟨secs, b1, b2, -⟩ := C25_value_partial sort hsort s hs h0
  have hmon : sig sys.den (sys.den.length - 1) = 1 := by
    obtain ⟨cn, d1, -⟩ := expandPolynomial_coeffs hz
    obtain ⟨cd, d2, -⟩ := expandPolynomial_coeffs hp
    have := a1
    unfold TransferFn.ofZpk at this
    rw [d1, Out.ok_bind, d2, Out.ok_bind] at this
    cases this
    exact expand_monic hp d2
  obtain ⟨y, t1, t2, f1, f2⟩ := C21_same_as_directFormI sys hmon sys.order sys.order le_rfl le_rfl x
  obtain ⟨y', t3, g1, g2⟩ := C22_cascade secs (biquadsOrder secs)
    (by rw [b2, C25_order sort hsort s hs h0 secs b1]; omega) x
  have hr := cascade_isResponse sort hsort s hz hp h0 b1 a1 x y' g2
  obtain ⟨y'', t4, e1, e2⟩ := C20_directFormI sys (by rw [hmon]; exact one_ne_zero) sys.order le_rfl x
  rw [f1] at e1
  cases e1
  have : y = y' := e2.unique (by rw [hmon]; exact one_ne_zero) hr
  subst this
  exact ⟨sys, secs, y, t1, t2, t3, a1, b1, f1, f2, g1, hr⟩

/-- **C21**: direct form II is right for every transfer function that was made from zeros, poles and gain, since
those are monic. -/
theorem C21_zpk (s : Zpk) (hs : s.Reachable) (sys : TransferFn ℝ) (h : TransferFn.ofZpk s = .ok sys) (ord : ℕ)
    (hord : sys.order ≤ ord) (x : List ℝ) :
    ∃ y s', DirectFormII.feed sys x (DirectFormII.make ord) = .ok (y, s') ∧ IsResponse sys.num sys.den x y := by
  obtain ⟨cn, d1, -⟩ := expandPolynomial_coeffs (C27_reachable_wf hs.1)
  obtain ⟨cd, d2, -⟩ := expandPolynomial_coeffs (C27_reachable_wf hs.2)
  have := h
  unfold TransferFn.ofZpk at this
  rw [d1, Out.ok_bind, d2, Out.ok_bind] at this
  cases this
  exact C21_directFormII_monic_partial _ (expand_monic (C27_reachable_wf hs.2) d2) ord hord x

/-- Non-vacuity of C25: the system of `example_zpk` has order two, and sorting by nothing is a permutation. -/
example : ∃ (s : Zpk) (secs : List (Biquad ℝ)), s.Reachable ∧ s.order ≠ 0 ∧ cascadedBiquad id s = .ok secs ∧
    secs.length = 1 := by
  obtain ⟨s, hs, h1, h2, h3, h4, h5⟩ := example_zpk
  have hz := realRoots_length (C27_reachable_wf hs.1)
  have hp := realRoots_length (C27_reachable_wf hs.2)
  have hz' := complexPairs_length s.zeros
  have hp' := complexPairs_length s.poles
  rw [h2] at hz
  rw [h3] at hz'
  rw [h4] at hp
  rw [h5] at hp'
  simp only [List.length_cons, List.length_nil] at hz hz' hp hp'
  have ho : s.order = 2 := by unfold Zpk.order FactoredPoly.numRoots; omega
  obtain ⟨secs, e1, e2, -⟩ := C25_value_partial id (fun _ => .refl _) s hs (by omega)
  exact ⟨s, secs, hs, by omega, e1, by rw [e2, ho]⟩

end Verif
