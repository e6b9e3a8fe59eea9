import Verif.Model.RootTransforms
import Verif.Lemmas.Systems
import Verif.Lemmas.IirFilter

set_option linter.unusedSimpArgs false
set_option linter.unusedSectionVars false

namespace Verif
open Classical

theorem countRoots_ok {l : List ℂ} (h : ConjugateClosed l) :
    countRoots l = .ok ((realPart l).length, (upperPart l).length) := by
  unfold countRoots
  rw [require_true ((areRootsConjugatePairs_iff l).2 h), Out.ok_bind, Out.pure_def]
  congr 1
  have : ∀ (l : List ℂ) (a : ℕ × ℕ), l.foldl (fun (acc : ℕ × ℕ) root =>
      (acc.1 + (if root.im = 0 then 1 else 0), acc.2 + (if root.im > 0 then 1 else 0))) a =
      (a.1 + (realPart l).length, a.2 + (upperPart l).length) := by
    intro l
    induction l with
    | nil => intro a; simp [realPart, upperPart]
    | cons z l ih =>
      intro a
      rw [List.foldl_cons, ih]
      have e1 : (realPart (z :: l)).length = (if z.im = 0 then 1 else 0) + (realPart l).length := by
        unfold realPart; by_cases h : z.im = 0 <;> simp [h]; omega
      have e2 : (upperPart (z :: l)).length = (if z.im > 0 then 1 else 0) + (upperPart l).length := by
        unfold upperPart; by_cases h : 0 < z.im <;> simp [h]; omega
      rw [e1, e2]
      simp only [Prod.mk.injEq]
      omega
  rw [this]
  simp

theorem countRoots_throws {l : List ℂ} (h : ¬ ConjugateClosed l) : countRoots l = .throws := by
  unfold countRoots
  rw [← areRootsConjugatePairs_iff] at h
  rw [require, if_neg h]; rfl

theorem countTransformedRoots_ok (func : ℂ → List ℂ) : ∀ (rs : List ℝ) (acc : ℕ × ℕ),
    (∀ r ∈ rs, ConjugateClosed (func r)) → countTransformedRoots func rs acc =
      .ok (acc.1 + (rs.flatMap fun (r : ℝ) => realPart (func (r : ℂ))).length,
        acc.2 + (rs.flatMap fun (r : ℝ) => upperPart (func (r : ℂ))).length)
  | [], acc, _ => by simp [countTransformedRoots]
  | r :: rs, acc, h => by
    rw [countTransformedRoots, countRoots_ok (h r (by simp)), Out.ok_bind,
      countTransformedRoots_ok func rs _ (fun q hq => h q (by simp [hq]))]
    simp only [List.flatMap_cons, List.length_append, Out.ok.injEq, Prod.mk.injEq]
    omega

theorem countTransformedRoots_throws (func : ℂ → List ℂ) : ∀ (rs : List ℝ) (acc : ℕ × ℕ),
    (∃ r ∈ rs, ¬ ConjugateClosed (func r)) → countTransformedRoots func rs acc = .throws
  | [], acc, h => by simp at h
  | r :: rs, acc, h => by
    rw [countTransformedRoots]
    by_cases hr : ConjugateClosed (func r)
    · rw [countRoots_ok hr, Out.ok_bind]
      apply countTransformedRoots_throws func rs
      obtain ⟨q, hq, hn⟩ := h
      rcases List.mem_cons.1 hq with rfl | hq
      · exact absurd hr hn
      · exact ⟨q, hq, hn⟩
    · rw [countRoots_throws hr]; rfl

/-- The writer has space for `nr` more real roots and `np` more pairs. -/
def RootWriter.Room (w : RootWriter) (nr np : ℕ) : Prop :=
  w.poly.WF ∧ w.ri + nr ≤ w.poly.numReal ∧ w.ci + np ≤ w.poly.numPairs

/-- `w'` results from `w` by writing these roots. -/
def RootWriter.Wrote (w w' : RootWriter) (reals : List ℝ) (pairs : List ℂ) : Prop :=
  w'.poly.WF ∧ w'.poly.numReal = w.poly.numReal ∧ w'.poly.numPairs = w.poly.numPairs ∧
  w'.ri = w.ri + reals.length ∧ w'.ci = w.ci + pairs.length ∧
  w'.poly.realRoots = overwrite w.poly.realRoots w.ri reals ∧
  w'.poly.complexPairs = overwrite w.poly.complexPairs w.ci pairs

theorem RootWriter.Wrote.nil {w : RootWriter} (h : w.poly.WF) : w.Wrote w [] [] :=
  ⟨h, rfl, rfl, rfl, rfl, (overwrite_nil _ _).symm, (overwrite_nil _ _).symm⟩

theorem RootWriter.Wrote.trans {w w' w'' : RootWriter} {r r' : List ℝ} {p p' : List ℂ} (hw : w.poly.WF)
    (hr : w.ri + r.length ≤ w.poly.numReal) (hp : w.ci + p.length ≤ w.poly.numPairs)
    (h : w.Wrote w' r p) (h' : w'.Wrote w'' r' p') : w.Wrote w'' (r ++ r') (p ++ p') := by
  obtain ⟨a1, a2, a3, a4, a5, a6, a7⟩ := h
  obtain ⟨b1, b2, b3, b4, b5, b6, b7⟩ := h'
  refine ⟨b1, by omega, by omega, by rw [List.length_append]; omega, by rw [List.length_append]; omega, ?_, ?_⟩
  · rw [b6, a6, a4, overwrite_overwrite _ _ _ _ (by rw [realRoots_length hw]; omega)]
  · rw [b7, a7, a5, overwrite_overwrite _ _ _ _ (by rw [complexPairs_length]; omega)]

theorem write_real {w : RootWriter} (z : ℝ) (h : w.Room 1 0) :
    ∃ p, w.poly.setReal w.ri z = .ok p ∧ w.Wrote ⟨p, w.ri + 1, w.ci⟩ [z] [] := by
  obtain ⟨h1, h2, h3⟩ := h
  obtain ⟨p, a1, a2, a3, a4, a5, a6⟩ := setReal_spec h1 (show w.ri < w.poly.numReal by omega) z
  refine ⟨p, a1, a2, a3, a4, rfl, rfl, ?_, ?_⟩
  · simp only; rw [a5, ← overwrite_cons _ _ _ _ (by rw [realRoots_length h1]; omega), overwrite_nil]
  · simp only; rw [a6, overwrite_nil]

theorem write_pair {w : RootWriter} (z : ℂ) (h : w.Room 0 1) :
    ∃ p, w.poly.setPair w.ci z = .ok p ∧ w.Wrote ⟨p, w.ri, w.ci + 1⟩ [] [z] := by
  obtain ⟨h1, h2, h3⟩ := h
  obtain ⟨p, a1, a2, a3, a4, a5, a6⟩ := setPair_spec h1 (show w.ci < w.poly.numPairs by omega) z
  refine ⟨p, a1, a2, a3, a4, rfl, rfl, ?_, ?_⟩
  · simp only; rw [a5, overwrite_nil]
  · simp only; rw [a6, ← overwrite_cons _ _ _ _ (by rw [complexPairs_length]; omega), overwrite_nil]

theorem Wrote.room {w w' : RootWriter} {r : List ℝ} {p : List ℂ} {a b : ℕ} (h : w.Wrote w' r p)
    (hr : w.Room (r.length + a) (p.length + b)) : w'.Room a b := by
  obtain ⟨a1, a2, a3, a4, a5, -, -⟩ := h
  obtain ⟨-, b2, b3⟩ := hr
  exact ⟨a1, by omega, by omega⟩

theorem writeRoots_spec : ∀ (zs : List ℂ) (w : RootWriter), w.Room (realPart zs).length (upperPart zs).length →
    ∃ w', writeRoots zs w = .ok w' ∧ w.Wrote w' (realPart zs) (upperPart zs)
  | [], w, h => ⟨w, rfl, .nil h.1⟩
  | z :: zs, w, h => by
    unfold writeRoots
    by_cases h1 : z.im > 0
    · have e1 : realPart (z :: zs) = realPart zs := by simp [realPart, h1.ne']
      have e2 : upperPart (z :: zs) = [z] ++ upperPart zs := by
        simp only [upperPart]; rw [List.filter_cons_of_pos (by simpa using h1)]; rfl
      rw [e1, e2] at h ⊢
      rw [List.length_append] at h
      obtain ⟨p, a1, a2⟩ := write_pair z (w := w) ⟨h.1, by have := h.2.1; omega, by have := h.2.2; simp at this; omega⟩
      obtain ⟨w', b1, b2⟩ := writeRoots_spec zs _ (Wrote.room a2 (by simpa using h))
      refine ⟨w', by rw [if_pos h1, a1, Out.ok_bind, b1], ?_⟩
      have := a2.trans h.1 (by have := h.2.1; simp; omega) (by have := h.2.2; simp at this ⊢; omega) b2
      simpa using this
    · rw [if_neg h1]
      have e2 : upperPart (z :: zs) = upperPart zs := by
        simp only [upperPart]; rw [List.filter_cons_of_neg (by simpa using h1)]
      by_cases h0 : z.im = 0
      · have e1 : realPart (z :: zs) = [z.re] ++ realPart zs := by simp [realPart, h0]
        rw [e1, e2] at h ⊢
        rw [List.length_append] at h
        obtain ⟨p, a1, a2⟩ := write_real z.re (w := w) ⟨h.1, by have := h.2.1; simp at this; omega, by have := h.2.2; omega⟩
        obtain ⟨w', b1, b2⟩ := writeRoots_spec zs _ (Wrote.room a2 (by simpa using h))
        refine ⟨w', by rw [if_pos h0, a1, Out.ok_bind, b1], ?_⟩
        have := a2.trans h.1 (by have := h.2.1; simp at this ⊢; omega) (by have := h.2.2; simp; omega) b2
        simpa using this
      · have e1 : realPart (z :: zs) = realPart zs := by simp [realPart, h0]
        rw [e1, e2] at h ⊢
        rw [if_neg h0]
        exact writeRoots_spec zs w h

theorem copyRoots_spec : ∀ (zs : List ℂ) (w : RootWriter), w.Room 0 zs.length →
    ∃ w', copyRoots zs w = .ok w' ∧ w.Wrote w' [] zs
  | [], w, h => ⟨w, rfl, .nil h.1⟩
  | z :: zs, w, h => by
    obtain ⟨p, a1, a2⟩ := write_pair z (w := w) ⟨h.1, h.2.1, by have := h.2.2; simp at this; omega⟩
    obtain ⟨w', b1, b2⟩ := copyRoots_spec zs _ (Wrote.room (a := 0) a2 (by simpa [add_comm] using h))
    refine ⟨w', by rw [copyRoots, a1, Out.ok_bind, b1], ?_⟩
    have := a2.trans h.1 (by have := h.2.1; simp; omega) (by have := h.2.2; simp at this ⊢; omega) b2
    simpa using this

theorem transformReals_spec (order : ℕ) (func : ℂ → List ℂ) : ∀ (rs : List ℝ) (w : RootWriter),
    (∀ r ∈ rs, (func r).length = order) →
    w.Room (rs.flatMap fun (r : ℝ) => realPart (func (r : ℂ))).length (rs.flatMap fun (r : ℝ) => upperPart (func (r : ℂ))).length →
    ∃ w', transformReals order func rs w = .ok w' ∧
      w.Wrote w' (rs.flatMap fun (r : ℝ) => realPart (func (r : ℂ))) (rs.flatMap fun (r : ℝ) => upperPart (func (r : ℂ)))
  | [], w, _, h => ⟨w, rfl, .nil h.1⟩
  | r :: rs, w, hl, h => by
    simp only [List.flatMap_cons, List.length_append] at h ⊢
    obtain ⟨w1, a1, a2⟩ := writeRoots_spec (func r) w ⟨h.1, by have := h.2.1; omega, by have := h.2.2; omega⟩
    obtain ⟨w2, b1, b2⟩ := transformReals_spec order func rs w1 (fun q hq => hl q (by simp [hq])) (Wrote.room a2 h)
    refine ⟨w2, ?_, a2.trans h.1 (by have := h.2.1; omega) (by have := h.2.2; omega) b2⟩
    rw [transformReals, cassert_true (hl r (by simp)), Out.ok_bind, a1, Out.ok_bind, b1]

theorem transformPairs_spec (order : ℕ) (func : ℂ → List ℂ) : ∀ (zs : List ℂ) (w : RootWriter),
    (∀ z ∈ zs, (func z).length = order) → w.Room 0 (zs.flatMap func).length →
    ∃ w', transformPairs order func zs w = .ok w' ∧ w.Wrote w' [] (zs.flatMap func)
  | [], w, _, h => ⟨w, rfl, .nil h.1⟩
  | z :: zs, w, hl, h => by
    simp only [List.flatMap_cons, List.length_append] at h ⊢
    obtain ⟨w1, a1, a2⟩ := copyRoots_spec (func z) w ⟨h.1, h.2.1, by have := h.2.2; omega⟩
    obtain ⟨w2, b1, b2⟩ := transformPairs_spec order func zs w1 (fun q hq => hl q (by simp [hq]))
      (Wrote.room (a := 0) a2 (by simpa using h))
    refine ⟨w2, ?_, ?_⟩
    · rw [transformPairs, cassert_true (hl z (by simp)), Out.ok_bind, a1, Out.ok_bind, b1]
    · have := a2.trans h.1 (by have := h.2.1; simp; omega) (by have := h.2.2; omega) b2
      simpa using this

theorem flatten_replicate_succ {α : Type} (n : ℕ) (l : List α) :
    (List.replicate (n + 1) l).flatten = (List.replicate n l).flatten ++ l := by
  rw [List.replicate_succ', List.flatten_append]; simp

theorem padLoop_spec (pads : List ℂ) : ∀ (n : ℕ) (w : RootWriter),
    w.Room (n * (realPart pads).length) (n * (upperPart pads).length) →
    ∃ w', forN n (fun _ w => writeRoots pads w) w = .ok w' ∧
      w.Wrote w' (List.replicate n (realPart pads)).flatten (List.replicate n (upperPart pads)).flatten
  | 0, w, h => ⟨w, rfl, .nil h.1⟩
  | n + 1, w, h => by
    have hr : w.Room (n * (realPart pads).length) (n * (upperPart pads).length) :=
      ⟨h.1, by have := h.2.1; rw [Nat.succ_mul] at this; omega, by have := h.2.2; rw [Nat.succ_mul] at this; omega⟩
    obtain ⟨w1, a1, a2⟩ := padLoop_spec pads n w hr
    have l1 : (List.replicate n (realPart pads)).flatten.length = n * (realPart pads).length := by simp
    have l2 : (List.replicate n (upperPart pads)).flatten.length = n * (upperPart pads).length := by simp
    obtain ⟨w2, b1, b2⟩ := writeRoots_spec pads w1 (Wrote.room a2 (by
      rw [l1, l2]; simpa [Nat.succ_mul] using h))
    refine ⟨w2, by rw [forN, a1, Out.ok_bind, b1], ?_⟩
    rw [flatten_replicate_succ, flatten_replicate_succ]
    exact a2.trans h.1 (by rw [l1]; exact hr.2.1) (by rw [l2]; exact hr.2.2) b2

/-! ### multisets of roots -/

theorem rootsOf_coe (r : List ℝ) (z : List ℂ) : (rootsOf r z : Multiset ℂ) =
    (r.map Complex.ofReal : List ℂ) + (z : Multiset ℂ) + (z.map (starRingEnd ℂ) : List ℂ) := by
  simp [rootsOf]

theorem rootsOf_append (r r' : List ℝ) (z z' : List ℂ) :
    (rootsOf (r ++ r') (z ++ z') : Multiset ℂ) = rootsOf r z + rootsOf r' z' := by
  simp only [rootsOf_coe, List.map_append, ← Multiset.coe_add]
  abel

theorem rootsOf_split {l : List ℂ} (h : ConjugateClosed l) :
    (rootsOf (realPart l) (upperPart l) : Multiset ℂ) = (l : Multiset ℂ) :=
  Multiset.coe_eq_coe.2 (conjClosed_split h)

theorem reals_images (func : ℂ → List ℂ) : ∀ (rs : List ℝ), (∀ r ∈ rs, ConjugateClosed (func r)) →
    (rootsOf (rs.flatMap fun (r : ℝ) => realPart (func (r : ℂ))) (rs.flatMap fun (r : ℝ) => upperPart (func (r : ℂ))) : Multiset ℂ) =
      ((rs.map Complex.ofReal).flatMap func : List ℂ)
  | [], _ => by simp [rootsOf]
  | r :: rs, h => by
    simp only [List.flatMap_cons, List.map_cons]
    rw [rootsOf_append, rootsOf_split (h r (by simp)), reals_images func rs (fun q hq => h q (by simp [hq])),
      Multiset.coe_add]

theorem pairs_images (func : ℂ → List ℂ) : ∀ (zs : List ℂ),
    (∀ z ∈ zs, (func ((starRingEnd ℂ) z)).Perm ((func z).map (starRingEnd ℂ))) →
    (rootsOf [] (zs.flatMap func) : Multiset ℂ) =
      ((zs ++ zs.map (starRingEnd ℂ)).flatMap func : List ℂ)
  | [], _ => by simp [rootsOf]
  | z :: zs, h => by
    have ih := pairs_images func zs (fun q hq => h q (by simp [hq]))
    have e := rootsOf_append [] [] (func z) (zs.flatMap func)
    simp only [List.append_nil] at e
    rw [List.flatMap_cons, e, ih]
    simp only [rootsOf_coe, List.map_nil, List.map_cons, List.cons_append, List.flatMap_cons, List.flatMap_append]
    simp only [← Multiset.coe_add]
    rw [Multiset.coe_eq_coe.2 (h z (by simp))]
    simp only [Multiset.coe_nil, zero_add]
    ac_rfl

theorem pads_images {pads : List ℂ} (h : ConjugateClosed pads) : ∀ n : ℕ,
    (rootsOf (List.replicate n (realPart pads)).flatten (List.replicate n (upperPart pads)).flatten : Multiset ℂ) =
      ((List.replicate n pads).flatten : List ℂ)
  | 0 => by simp [rootsOf]
  | n + 1 => by
    rw [flatten_replicate_succ, flatten_replicate_succ, flatten_replicate_succ, rootsOf_append, pads_images h n,
      rootsOf_split h, Multiset.coe_add]

theorem flatMap_length_const {α : Type} (f : α → List ℂ) (n : ℕ) : ∀ (l : List α), (∀ a ∈ l, (f a).length = n) →
    (l.flatMap f).length = n * l.length
  | [], _ => by simp
  | a :: l, h => by
    rw [List.flatMap_cons, List.length_append, h a (by simp), flatMap_length_const f n l (fun b hb => h b (by simp [hb])),
      List.length_cons]
    ring

theorem transformRoots_spec (order : ℕ) {poly : FactoredPoly} (func : ℂ → List ℂ) (numRoots : ℕ)
    (pads : List ℂ) (hlen : ∀ z ∈ rootsOf poly.realRoots poly.complexPairs, (func z).length = order)
    (hreal : ∀ r ∈ poly.realRoots, ConjugateClosed (func r))
    (hpair : ∀ z ∈ poly.complexPairs, (func ((starRingEnd ℂ) z)).Perm ((func z).map (starRingEnd ℂ)))
    (hpads : ConjugateClosed pads) (hnum : numRoots = 0 ∨ poly.numRoots ≤ numRoots) :
    ∃ q, transformRoots order poly func numRoots pads = .ok q ∧ q.WF ∧
      (rootsOf q.realRoots q.complexPairs).Perm
        ((rootsOf poly.realRoots poly.complexPairs).flatMap func ++
          (List.replicate ((if numRoots = 0 then poly.numRoots else numRoots) - poly.numRoots) pads).flatten) := by
  have hlr : ∀ r ∈ poly.realRoots, (func r).length = order := fun r hr => hlen r (by simp [rootsOf, hr])
  have hlp : ∀ z ∈ poly.complexPairs, (func z).length = order := fun z hz => hlen z (by simp [rootsOf, hz])
  unfold transformRoots
  rw [countTransformedRoots_ok func _ _ hreal, Out.ok_bind]
  simp only
  rw [countRoots_ok hpads, Out.ok_bind]
  simp only
  rw [cassert_true hnum, Out.ok_bind, usub_eq (by split <;> omega)]
  obtain ⟨N, hN⟩ : ∃ N, N = (if numRoots = 0 then poly.numRoots else numRoots) - poly.numRoots := ⟨_, rfl⟩
  rw [← hN]
  obtain ⟨q0, a1, a2, a3, a4, -, -⟩ := resize_fresh
    (0 + (poly.realRoots.flatMap fun (r : ℝ) => realPart (func (r : ℂ))).length + N * (realPart pads).length)
    (0 + (poly.realRoots.flatMap fun (r : ℝ) => upperPart (func (r : ℂ))).length + order * poly.numPairs +
      N * (upperPart pads).length) 0 0
  rw [a1, Out.ok_bind]
  have hfl : (poly.complexPairs.flatMap func).length = order * poly.numPairs := by
    rw [flatMap_length_const func order _ hlp, complexPairs_length]
  obtain ⟨w1, b1, b2⟩ := transformReals_spec order func poly.realRoots ⟨q0, 0, 0⟩ hlr
    ⟨a2, by simp only; omega, by simp only; omega⟩
  rw [b1, Out.ok_bind]
  have r1 : w1.Room (N * (realPart pads).length) (order * poly.numPairs + N * (upperPart pads).length) :=
    Wrote.room b2 ⟨a2, by simp only; omega, by simp only; omega⟩
  obtain ⟨w2, c1, c2⟩ := transformPairs_spec order func poly.complexPairs w1 hlp
    ⟨r1.1, by have := r1.2.1; omega, by have := r1.2.2; omega⟩
  rw [c1, Out.ok_bind]
  have r2 : w2.Room (N * (realPart pads).length) (N * (upperPart pads).length) :=
    Wrote.room c2 ⟨r1.1, by have := r1.2.1; simp; omega, by have := r1.2.2; omega⟩
  obtain ⟨w3, d1, d2⟩ := padLoop_spec pads N w2 r2
  rw [d1, Out.ok_bind]
  apply exists_ok rfl
  have t1 := c2.trans r1.1 (by have := r1.2.1; simp; omega) (by have := r1.2.2; omega) d2
  have t2 := b2.trans a2 (by simp only; omega) (by simp only; omega) t1
  obtain ⟨e1, e2, e3, e4, e5, e6, e7⟩ := t2
  refine ⟨e1, ?_⟩
  simp only at e2 e3 e4 e5 e6 e7
  have l1 : (List.replicate N (realPart pads)).flatten.length = N * (realPart pads).length := by simp
  have l2 : (List.replicate N (upperPart pads)).flatten.length = N * (upperPart pads).length := by simp
  rw [overwrite_all _ _ (by
    rw [realRoots_length a2, a3, List.length_append, List.length_append, l1, List.length_nil]; omega)] at e6
  rw [overwrite_all _ _ (by
    rw [complexPairs_length, a4, List.length_append, List.length_append, l2, hfl]; omega)] at e7
  rw [e6, e7]
  apply Multiset.coe_eq_coe.1
  rw [rootsOf_append, rootsOf_append, reals_images func _ hreal, pairs_images func _ hpair, pads_images hpads]
  simp only [rootsOf, List.flatMap_append, ← Multiset.coe_add]
  abel

end Verif
