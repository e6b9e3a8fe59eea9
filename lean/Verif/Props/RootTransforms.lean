import Verif.Lemmas.RootTransforms
import Verif.Props.Systems

/-!
# Property C60: transforming the roots of a polynomial
-/

set_option linter.unusedSimpArgs false

namespace Verif
open Complex

/-- A root map respects conjugation: the images of a real number are closed under conjugation, and the images of
a conjugate are the conjugates of the images. -/
def RespectsConjugation (func : ℂ → List ℂ) : Prop :=
  ∀ z, (func ((starRingEnd ℂ) z)).Perm ((func z).map (starRingEnd ℂ))

theorem RespectsConjugation.real {func : ℂ → List ℂ} (h : RespectsConjugation func) (r : ℝ) :
    ConjugateClosed (func r) := by
  have := h r
  rw [conj_ofReal] at this
  exact this.symm

theorem writeRoots_reachable : ∀ (zs : List ℂ) (w w' : RootWriter), w.poly.Reachable → writeRoots zs w = .ok w' →
    w'.poly.Reachable
  | [], w, w', h, e => by cases e; exact h
  | z :: zs, w, w', h, e => by
    unfold writeRoots at e
    split at e
    · rw [Out.bind_eq_ok] at e
      obtain ⟨p, e1, e2⟩ := e
      exact writeRoots_reachable zs _ w' (.setPair h e1) e2
    · split at e
      · rw [Out.bind_eq_ok] at e
        obtain ⟨p, e1, e2⟩ := e
        exact writeRoots_reachable zs _ w' (.setReal h e1) e2
      · exact writeRoots_reachable zs w w' h e

theorem copyRoots_reachable : ∀ (zs : List ℂ) (w w' : RootWriter), w.poly.Reachable → copyRoots zs w = .ok w' →
    w'.poly.Reachable
  | [], w, w', h, e => by cases e; exact h
  | z :: zs, w, w', h, e => by
    unfold copyRoots at e
    rw [Out.bind_eq_ok] at e
    obtain ⟨p, e1, e2⟩ := e
    exact copyRoots_reachable zs _ w' (.setPair h e1) e2

theorem transformReals_reachable (order : ℕ) (func : ℂ → List ℂ) : ∀ (rs : List ℝ) (w w' : RootWriter),
    w.poly.Reachable → transformReals order func rs w = .ok w' → w'.poly.Reachable
  | [], w, w', h, e => by cases e; exact h
  | r :: rs, w, w', h, e => by
    unfold transformReals at e
    rw [Out.bind_eq_ok] at e
    obtain ⟨_, -, e⟩ := e
    rw [Out.bind_eq_ok] at e
    obtain ⟨w1, e1, e2⟩ := e
    exact transformReals_reachable order func rs w1 w' (writeRoots_reachable _ _ _ h e1) e2

theorem transformPairs_reachable (order : ℕ) (func : ℂ → List ℂ) : ∀ (rs : List ℂ) (w w' : RootWriter),
    w.poly.Reachable → transformPairs order func rs w = .ok w' → w'.poly.Reachable
  | [], w, w', h, e => by cases e; exact h
  | r :: rs, w, w', h, e => by
    unfold transformPairs at e
    rw [Out.bind_eq_ok] at e
    obtain ⟨_, -, e⟩ := e
    rw [Out.bind_eq_ok] at e
    obtain ⟨w1, e1, e2⟩ := e
    exact transformPairs_reachable order func rs w1 w' (copyRoots_reachable _ _ _ h e1) e2

/-- Whatever `TransformRoots` returns was built through the public interface. -/
theorem transformRoots_reachable {order : ℕ} {poly q : FactoredPoly} {func : ℂ → List ℂ} {numRoots : ℕ} {pads : List ℂ}
    (h : transformRoots order poly func numRoots pads = .ok q) : q.Reachable := by
  unfold transformRoots at h
  rw [Out.bind_eq_ok] at h; obtain ⟨⟨a, b⟩, -, h⟩ := h
  simp only at h
  rw [Out.bind_eq_ok] at h; obtain ⟨⟨c, d⟩, -, h⟩ := h
  simp only at h
  rw [Out.bind_eq_ok] at h; obtain ⟨_, -, h⟩ := h
  rw [Out.bind_eq_ok] at h; obtain ⟨r, h1, h⟩ := h
  rw [Out.bind_eq_ok] at h; obtain ⟨w1, h2, h⟩ := h
  rw [Out.bind_eq_ok] at h; obtain ⟨w2, h3, h⟩ := h
  rw [Out.bind_eq_ok] at h; obtain ⟨w3, h4, h⟩ := h
  cases h
  have r1 := transformReals_reachable order func _ _ _ (.resize .empty h1) h2
  have r2 := transformPairs_reachable order func _ _ _ r1 h3
  have : ∀ (n : ℕ) (w : RootWriter), forN n (fun _ w => writeRoots pads w) w2 = .ok w → w.poly.Reachable := by
    intro n
    induction n with
    | zero => intro w e; cases e; exact r2
    | succ n ih =>
      intro w e
      rw [forN, Out.bind_eq_ok] at e
      obtain ⟨w', e1, e2⟩ := e
      exact writeRoots_reachable _ _ _ (ih w' e1) e2
  exact this _ _ h4

/-- **C60**: transforming the roots of any polynomial, whatever its layout, by a map that respects conjugation
succeeds; the roots of the result are the images of all roots, with multiplicities, and one set of padding roots for
each requested root that the polynomial does not have. -/
theorem C60_roots (order : ℕ) (poly : FactoredPoly) (func : ℂ → List ℂ) (numRoots : ℕ) (pads : List ℂ)
    (hlen : ∀ z, (func z).length = order) (hpad : pads.length = order) (hfunc : RespectsConjugation func)
    (hpads : ConjugateClosed pads) (hnum : numRoots = 0 ∨ poly.numRoots ≤ numRoots) :
    ∃ q, transformRoots order poly func numRoots pads = .ok q ∧ q.Reachable ∧
      (rootsOf q.realRoots q.complexPairs).Perm
        ((rootsOf poly.realRoots poly.complexPairs).flatMap func ++
          (List.replicate ((if numRoots = 0 then poly.numRoots else numRoots) - poly.numRoots) pads).flatten) ∧
      (poly.Reachable → q.numRoots = order * (if numRoots = 0 then poly.numRoots else numRoots)) := by
  obtain ⟨q, h1, h2, h3⟩ := transformRoots_spec order (poly := poly) func numRoots pads (fun z _ => hlen z)
    (fun r _ => hfunc.real r) (fun z _ => hfunc z) hpads hnum
  refine ⟨q, h1, transformRoots_reachable h1, h3, fun hp => ?_⟩
  have hl := h3.length_eq
  rw [rootsOf_length, realRoots_length h2, complexPairs_length, List.length_append,
    flatMap_length_const func order _ (fun z _ => hlen z), rootsOf_length, realRoots_length (C27_reachable_wf hp),
    complexPairs_length] at hl
  have hf : ∀ n : ℕ, (List.replicate n pads).flatten.length = order * n := by
    intro n; simp [hpad, mul_comm]
  rw [hf] at hl
  have e1 : q.numRoots = q.numReal + 2 * q.numPairs := rfl
  have e2 : poly.numRoots = poly.numReal + 2 * poly.numPairs := rfl
  rw [e1, hl, ← e2, ← mul_add]
  congr 1
  split <;> omega

/-- **C60**: a map or padding that would leave a real polynomial with non-real coefficients is rejected by an
exception, and asking for fewer roots than there are is rejected by an assertion. -/
theorem C60_rejects (order : ℕ) (poly : FactoredPoly) (func : ℂ → List ℂ) (numRoots : ℕ) (pads : List ℂ) :
    ((∃ r ∈ poly.realRoots, ¬ ConjugateClosed (func r)) → transformRoots order poly func numRoots pads = .throws) ∧
    ((∀ r ∈ poly.realRoots, ConjugateClosed (func r)) → ¬ ConjugateClosed pads →
      transformRoots order poly func numRoots pads = .throws) ∧
    ((∀ r ∈ poly.realRoots, ConjugateClosed (func r)) → ConjugateClosed pads → 0 < numRoots →
      numRoots < poly.numRoots → transformRoots order poly func numRoots pads = .assertFail) := by
  unfold transformRoots
  refine ⟨fun h => ?_, fun h hp => ?_, fun h hp h0 hn => ?_⟩
  · rw [countTransformedRoots_throws func _ _ h]; rfl
  · rw [countTransformedRoots_ok func _ _ h, Out.ok_bind]
    simp only
    rw [countRoots_throws hp]; rfl
  · rw [countTransformedRoots_ok func _ _ h, Out.ok_bind]
    simp only
    rw [countRoots_ok hp, Out.ok_bind]
    simp only
    rw [cassert, if_neg (by omega)]; rfl

/-- Non-vacuity of C60: `z ↦ {z + i, z - i}` with padding `±i` on the polynomial with the only root `1`, asked for two
roots, gives the roots `1 ± i, ±i`. -/
example : ∃ p q : FactoredPoly, p.Reachable ∧ p.realRoots = [1] ∧
    transformRoots 2 p (fun z => [z + I, z - I]) 2 [I, -I] = .ok q ∧
    (rootsOf q.realRoots q.complexPairs).Perm [1 + I, 1 - I, I, -I] := by
  have hc' : ConjugateClosed [1] := by simp [ConjugateClosed]
  obtain ⟨p, g1, g2, g3, g4⟩ := ofRoots_ok hc'
  have hr : p.realRoots = [1] := by rw [g3]; simp [realPart]
  have hcp : p.complexPairs = [] := by rw [g4]; simp [upperPart]
  have hn : p.numRoots = 1 := by rw [(C26_roots _ _ g1).2.1]; rfl
  obtain ⟨q, h1, -, h2, -⟩ := C60_roots 2 p (fun z => [z + I, z - I]) 2 [I, -I] (fun _ => rfl) rfl
    (by intro z
        simp only [List.map_cons, List.map_nil, map_add, map_sub, conj_I]
        rw [sub_neg_eq_add, ← sub_eq_add_neg]
        exact List.Perm.swap _ _ _)
    (by simp only [ConjugateClosed, List.map_cons, List.map_nil, conj_I, map_neg, neg_neg]
        exact List.Perm.swap _ _ _) (by omega)
  refine ⟨p, q, .ofRoots g1, hr, h1, ?_⟩
  rw [hr, hcp, hn] at h2
  simpa [rootsOf] using h2

end Verif
