import Verif.Lemmas.Convolution2

set_option linter.unusedSimpArgs false
set_option linter.unusedSectionVars false
set_option linter.unusedTactic false

namespace Verif
open Finset

section
variable {R : Type u} [Zero R] [Add R] [Mul R]

theorem loopTerm_eq {W : ℕ} {u b : List R} {p1 p2 : ℤ} {k : ℕ} (h1 : 0 ≤ p1 + k)
    (h2 : p1 + k < u.length) (h3 : 0 ≤ p2 - k) (h4 : p2 - k + W ≤ b.length) :
    loopTerm W u p1 b p2 k =
      .ok (reg W (fun i => sigI u (p1 + k) * sigI b (p2 - k + i))) := by
  unfold loopTerm
  rw [rd_sig h1 h2, Out.ok_bind, loadVI_reg h3 h4, Out.ok_bind, map_reg]
  rfl

/-- content of the padding buffer -/
theorem paddingOf_eq (W : ℕ) (hW : 0 < W) (v : List R) :
    ∃ p, paddingOf W v = .ok p ∧ p.length = 4 * W - 2 ∧ ∀ x : ℤ,
      sigI p x = if (W : ℤ) - 1 ≤ x ∧ x < W - 1 + min W v.length then sigI v (x - (W - 1))
        else if 3 * (W : ℤ) - 1 - min W v.length ≤ x ∧ x < 3 * (W : ℤ) - 1 then
          sigI v (v.length - (3 * W - 1) + x) else 0 := by
  unfold paddingOf
  obtain ⟨p, e1, e2, e3⟩ := storeV_sig (mem := List.replicate (4 * W - 2) (0 : R)) (p := W - 1)
    (v := v.take (min W v.length)) (by simp; omega)
  simp only
  rw [e1, Out.ok_bind]
  simp only [List.length_replicate] at e2
  obtain ⟨q, f1, f2, f3⟩ := storeV_sig (mem := p) (p := 4 * W - 2 - (W - 1) - min W v.length)
    (v := v.drop (v.length - min W v.length)) (by simp; omega)
  refine ⟨q, f1, by omega, fun x => ?_⟩
  unfold sigI
  have hz : ∀ j, sig (List.replicate (4 * W - 2) (0 : R)) j = 0 := by
    intro j; unfold sig
    by_cases h : j < 4 * W - 2 <;> simp [h]
  by_cases hx : 0 ≤ x
  · rw [if_pos hx, f3, e3, hz]
    simp only [List.length_drop, List.length_take]
    by_cases c2 : 3 * (W : ℤ) - 1 - min W v.length ≤ x ∧ x < 3 * (W : ℤ) - 1
    · rw [if_pos (by omega), if_neg (by omega), if_pos c2, if_pos (by omega)]
      unfold sig
      simp only [List.getD_eq_getElem?_getD, List.getElem?_drop]
      congr 2
      omega
    · rw [if_neg (by omega), if_neg c2]
      by_cases c1 : (W : ℤ) - 1 ≤ x ∧ x < W - 1 + min W v.length
      · rw [if_pos (by omega), if_pos c1, if_pos (by omega)]
        unfold sig
        simp only [List.getD_eq_getElem?_getD, List.getElem?_take]
        rw [if_pos (by omega)]
        congr 2
        omega
      · rw [if_neg (by omega), if_neg c1]
  · rw [if_neg hx, if_neg (by omega), if_neg (by omega)]

end

section
variable {R : Type u} [CommRing R]

/-! ### vectorised reducing kernel -/

/-- A reduction operator that adds exactly, as seen on registers. -/
structure AddsExactly (r : ReduceOp R) : Prop where
  op : ∀ a b, r.op a b = a + b
  comp : ∀ c0 f, r.comp = some (c0, f) → ∀ s x, f c0 s x = (c0, s + x)

theorem plusCompensated_adds : AddsExactly (plusCompensated : ReduceOp R) where
  op _ _ := rfl
  comp c0 f h s x := by
    simp [plusCompensated] at h
    obtain ⟨rfl, rfl⟩ := h
    simp

theorem plain_adds : AddsExactly (plainOp (· + ·) : ReduceOp R) where
  op _ _ := rfl
  comp c0 f h := by simp [plainOp] at h

theorem lift_comp_reg {r : ReduceOp R} (hr : AddsExactly r) {W : ℕ} {c0 : R} {f} (h : r.comp = some (c0, f))
    (s x : ℕ → R) : ∃ C F, (r.lift W).comp = some (C, F) ∧
      F (reg W (fun _ => c0)) (reg W s) (reg W x) = (reg W (fun _ => c0), reg W (fun i => s i + x i)) := by
  refine ⟨_, _, by simp [ReduceOp.lift, h]; exact ⟨rfl, rfl⟩, ?_⟩
  have : List.zip (reg W s) (reg W x) = (List.range W).map (fun i => (s i, x i)) := by
    unfold reg List.zip
    rw [List.zipWith_map]
    simp
  simp only [this]
  unfold reg
  simp only [List.zipWith_map, List.zipWith_self, hr.comp c0 f h, List.map_map]

theorem reduceLoop_eq {W : ℕ} {u b : List R} {p1 p2 count : ℤ} {r : ReduceOp R} (hr : AddsExactly r)
    (f : ℕ → R) (hb : ∀ k : ℕ, (k : ℤ) < count →
      0 ≤ p1 + k ∧ p1 + k < u.length ∧ 0 ≤ p2 - k ∧ p2 - k + W ≤ b.length) :
    convolutionReduceLoop W u p1 b p2 (reg W f) count r =
      .ok (reg W (fun i => f i + ∑ k ∈ range count.toNat, sigI u (p1 + k) * sigI b (p2 - k + i))) := by
  set c := count.toNat with hc
  set T : ℕ → ℕ → R := fun k i => sigI u (p1 + k) * sigI b (p2 - k + i) with hT
  have lt : ∀ k, k < c → loopTerm W u p1 b p2 k = .ok (reg W (T k)) := by
    intro k hk
    obtain ⟨a1, a2, a3, a4⟩ := hb k (by omega)
    exact loopTerm_eq a1 a2 a3 a4
  have tb0 : c.testBit 0 = decide (c % 2 = 1) := by simp [Nat.testBit_zero]
  have tb1 : c.testBit 1 = decide (c / 2 % 2 = 1) := by
    rw [Nat.testBit_succ, Nat.testBit_zero]
  -- main loop
  have main : ∀ (start : ℕ) (g : ℕ → R), start ≤ c → (c - start) % 4 = 0 →
      (do
        let res ← forN ((c - start + 3) / 4) (fun j (s : List R × List R) => do
          let idx := start + 4 * j
          let v1 ← loopTerm W u p1 b p2 idx
          let v2 ← loopTerm W u p1 b p2 (idx + 1)
          let v3 ← loopTerm W u p1 b p2 (idx + 2)
          let v4 ← loopTerm W u p1 b p2 (idx + 3)
          let t := List.zipWith (· + ·) (List.zipWith (· + ·) v1 v2) (List.zipWith (· + ·) v3 v4)
          match (r.lift W).comp with
          | none => pure (s.1, (r.lift W).op s.2 t)
          | some (_, f) => pure (f s.1 s.2 t))
          ((match r.comp with
            | none => []
            | some (c0, _) => List.replicate W c0), reg W g)
        pure res.2 : Out (List R)) =
      .ok (reg W (fun i => g i + ∑ k ∈ range (c - start), T (start + k) i)) := by
    intro start g hst hmod
    obtain ⟨s, hs, hi⟩ := forN_inv (body := fun j (s : List R × List R) => do
          let idx := start + 4 * j
          let v1 ← loopTerm W u p1 b p2 idx
          let v2 ← loopTerm W u p1 b p2 (idx + 1)
          let v3 ← loopTerm W u p1 b p2 (idx + 2)
          let v4 ← loopTerm W u p1 b p2 (idx + 3)
          let t := List.zipWith (· + ·) (List.zipWith (· + ·) v1 v2) (List.zipWith (· + ·) v3 v4)
          match (r.lift W).comp with
          | none => pure (s.1, (r.lift W).op s.2 t)
          | some (_, f) => pure (f s.1 s.2 t))
      (fun j s => s = ((match r.comp with
            | none => []
            | some (c0, _) => List.replicate W c0),
          reg W (fun i => g i + ∑ k ∈ range (4 * j), T (start + k) i)))
      ((c - start + 3) / 4) ((match r.comp with
            | none => []
            | some (c0, _) => List.replicate W c0), reg W g) (by simp) (by
        rintro j s hj rfl
        refine ⟨_, ?_, rfl⟩
        simp only
        rw [lt _ (by omega), Out.ok_bind, lt _ (by omega), Out.ok_bind, lt _ (by omega), Out.ok_bind,
          lt _ (by omega), Out.ok_bind]
        simp only [zipWith_reg]
        have hsum : ∀ i, g i + ∑ k ∈ range (4 * (j + 1)), T (start + k) i =
            (g i + ∑ k ∈ range (4 * j), T (start + k) i) +
            (T (start + 4 * j) i + T (start + 4 * j + 1) i +
              (T (start + 4 * j + 2) i + T (start + 4 * j + 3) i)) := by
          intro i
          rw [show 4 * (j + 1) = 4 * j + 1 + 1 + 1 + 1 by ring]
          simp only [sum_range_succ, ← add_assoc]
        cases hcomp : r.comp with
        | none =>
          have : (r.lift W).comp = none := by simp [ReduceOp.lift, hcomp]
          rw [this]
          simp only [ReduceOp.lift, zipWith_reg, Out.pure_def, hr.op, hsum]
        | some cf =>
          obtain ⟨c0, F⟩ := cf
          obtain ⟨C, F', e1, e2⟩ := lift_comp_reg hr (W := W) hcomp
            (fun i => g i + ∑ k ∈ range (4 * j), T (start + k) i)
            (fun i => T (start + 4 * j) i + T (start + 4 * j + 1) i +
              (T (start + 4 * j + 2) i + T (start + 4 * j + 3) i))
          rw [e1]
          simp only [replicate_reg, e2, Out.pure_def, hsum])
    rw [hs, Out.ok_bind, hi]
    simp only [Out.pure_def]
    have : 4 * ((c - start + 3) / 4) = c - start := by omega
    rw [this]
  unfold convolutionReduceLoop
  simp only [← hc, tb0, tb1]
  by_cases b0 : c % 2 = 1
  · by_cases b1 : c / 2 % 2 = 1
    · simp only [b0, b1, decide_true, if_true, zero_add]
      rw [lt 0 (by omega), Out.ok_bind, lt 1 (by omega), Out.ok_bind, lt 2 (by omega), Out.ok_bind]
      simp only [zipWith_reg]
      have := main 3 (fun i => f i + T 0 i + (T 1 i + T 2 i)) (by omega) (by omega)
      refine this.trans ?_
      congr 1
      apply reg_congr
      intro i _
      have e : ∑ k ∈ range c, T k i = ∑ k ∈ range (3 + (c - 3)), T k i := by
        congr 2; omega
      refine Eq.trans ?_ (congrArg (f i + ·) e.symm)
      simp only [sum_range_add]
      simp only [sum_range_succ, sum_range_zero]
      ring
    · simp only [b0, b1, decide_true, decide_false, Bool.false_eq_true, if_true, if_false, zero_add]
      rw [lt 0 (by omega), Out.ok_bind]
      simp only [zipWith_reg]
      have := main 1 (fun i => f i + T 0 i) (by omega) (by omega)
      refine this.trans ?_
      congr 1
      apply reg_congr
      intro i _
      have e : ∑ k ∈ range c, T k i = ∑ k ∈ range (1 + (c - 1)), T k i := by
        congr 2; omega
      refine Eq.trans ?_ (congrArg (f i + ·) e.symm)
      simp only [sum_range_add]
      simp only [sum_range_succ, sum_range_zero]
      ring
  · by_cases b1 : c / 2 % 2 = 1
    · simp only [b0, b1, decide_true, decide_false, Bool.false_eq_true, if_true, if_false, zero_add]
      rw [lt 0 (by omega), Out.ok_bind, lt 1 (by omega), Out.ok_bind]
      simp only [zipWith_reg]
      have := main 2 (fun i => f i + (T 0 i + T 1 i)) (by omega) (by omega)
      refine this.trans ?_
      congr 1
      apply reg_congr
      intro i _
      have e : ∑ k ∈ range c, T k i = ∑ k ∈ range (2 + (c - 2)), T k i := by
        congr 2; omega
      refine Eq.trans ?_ (congrArg (f i + ·) e.symm)
      simp only [sum_range_add]
      simp only [sum_range_succ, sum_range_zero]
      ring
    · simp only [b0, b1, decide_false, Bool.false_eq_true, if_false]
      have := main 0 f (by omega) (by omega)
      refine this.trans ?_
      simp [hT]

theorem sum_three (F : ℤ → R) (a b c d : ℤ) (h1 : a ≤ b) (h2 : b ≤ c) (h3 : c ≤ d) :
    ∑ k ∈ range (b - a).toNat, F (a + k) + ∑ k ∈ range (c - b).toNat, F (b + k) +
      ∑ k ∈ range (d - c).toNat, F (c + k) = ∑ k ∈ range (d - a).toNat, F (a + k) := by
  have e1 : (d - a).toNat = (b - a).toNat + (c - b).toNat + (d - c).toNat := by omega
  rw [e1, sum_range_add, sum_range_add]
  congr 1
  · congr 1
    apply sum_congr rfl
    intro k _
    congr 1; push_cast; omega
  · apply sum_congr rfl
    intro k _
    congr 1; push_cast; omega

theorem reduceVecStep_eq {W : ℕ} (hW : 0 < W) {r : ReduceOp R} (hr : AddsExactly r) (junk : List R)
    (hj : junk.length = W)
    (u v padding out : List R) (hp : paddingOf W v = .ok padding) (n : ℕ) (pout : ℕ) (acc : Bool)
    (hpo : pout < out.length) :
    ∃ out', reduceVecStep W junk r u v padding out n pout acc = .ok out' ∧ out'.length = out.length ∧
      ∀ j, sig out' j = if pout ≤ j ∧ j < pout + W ∧ j < out.length
        then (if acc then sig out j else 0) + convAt u v (n + (j - pout)) else sig out j := by
  obtain ⟨p, hp1, hp2, hp3⟩ := paddingOf_eq W hW v
  obtain rfl : p = padding := by simpa using hp1.symm.trans hp
  set iw := min (out.length - pout) W with hiw
  -- start register
  obtain ⟨f, hf1, hf2⟩ : ∃ f : ℕ → R, (if acc then loadPartialFront W junk out pout iw
      else pure (List.replicate W 0)) = .ok (reg W f) ∧
      ∀ i, i < iw → f i = if acc then sig out (pout + i) else 0 := by
    cases acc with
    | false =>
      refine ⟨fun _ => 0, ?_, fun i _ => by simp⟩
      simp [replicate_reg]
    | true =>
      simp only [if_true]
      unfold loadPartialFront
      rw [loadV_reg (by omega), Out.ok_bind]
      refine ⟨sig (reg iw (fun i => sig out (pout + i)) ++ (junk.drop iw).take (W - iw)), ?_, ?_⟩
      · simp only [Out.pure_def]
        congr 1
        exact reg_of_length (by simp [hj]; omega)
      · intro i hi
        have : sig (reg iw (fun i => sig out (pout + i)) ++ (junk.drop iw).take (W - iw)) i =
            sig (reg iw (fun i => sig out (pout + i))) i := by
          unfold sig
          simp only [List.getD_eq_getElem?_getD]
          rw [List.getElem?_append_left (by simpa using hi)]
        rw [this, sig_reg, if_pos hi]
  unfold reduceVecStep
  simp only [← hiw]
  rw [hf1, Out.ok_bind]
  set mF : ℤ := max 0 ((n : ℤ) - v.length + 1) with hmF
  set mL : ℤ := min (u.length : ℤ) ((n : ℤ) + W) with hmL
  set pre : ℤ := max mF (min mL ((n : ℤ) + W - v.length)) with hpre
  set mid : ℤ := max pre (min (n : ℤ) mL) with hmid
  set post : ℤ := max mid mL with hpost
  have hlen : (p.length : ℤ) = 4 * W - 2 := by omega
  rw [reduceLoop_eq hr _ (by
      intro k hk
      refine ⟨by omega, by omega, by omega, by omega⟩), Out.ok_bind,
    reduceLoop_eq hr _ (by
      intro k hk
      refine ⟨by omega, by omega, by omega, by omega⟩), Out.ok_bind,
    reduceLoop_eq hr _ (by
      intro k hk
      refine ⟨by omega, by omega, by omega, by omega⟩), Out.ok_bind]
  have hval : ∀ i : ℕ, i < W → f i +
        ∑ k ∈ range (pre - mF).toNat, sigI u (mF + k) * sigI p ((p.length : ℤ) - W + 1 + n - mF - v.length - k + i) +
        ∑ k ∈ range (mid - pre).toNat, sigI u (pre + k) * sigI v (max 0 ((n : ℤ) - pre) - k + i) +
        ∑ k ∈ range (post - mid).toNat, sigI u (mid + k) * sigI p ((n : ℤ) - mid + W - 1 - k + i) =
      f i + convAt u v (n + i) := by
    intro i hi
    have h1 : ∑ k ∈ range (pre - mF).toNat, sigI u (mF + k) *
          sigI p ((p.length : ℤ) - W + 1 + n - mF - v.length - k + i) =
        ∑ k ∈ range (pre - mF).toNat, (fun m : ℤ => sigI u m * sigI v ((n : ℤ) + i - m)) (mF + k) := by
      apply sum_congr rfl
      intro k hk
      have hk' : (k : ℤ) < pre - mF := by have := mem_range.1 hk; omega
      simp only
      congr 1
      rw [hp3]
      by_cases c : 3 * (W : ℤ) - 1 - min W v.length ≤ (p.length : ℤ) - W + 1 + n - mF - v.length - k + i ∧
          (p.length : ℤ) - W + 1 + n - mF - v.length - k + i < 3 * (W : ℤ) - 1
      · rw [if_neg (by omega), if_pos c]
        congr 1; omega
      · rw [if_neg (by omega), if_neg c]
        symm
        by_cases c' : (n : ℤ) + i - (mF + k) < 0
        · exact sigI_neg c'
        · exact sigI_ge (by omega)
    have h2 : ∑ k ∈ range (mid - pre).toNat, sigI u (pre + k) * sigI v (max 0 ((n : ℤ) - pre) - k + i) =
        ∑ k ∈ range (mid - pre).toNat, (fun m : ℤ => sigI u m * sigI v ((n : ℤ) + i - m)) (pre + k) := by
      apply sum_congr rfl
      intro k hk
      have hk' : (k : ℤ) < mid - pre := by have := mem_range.1 hk; omega
      simp only
      congr 2
      omega
    have h3 : ∑ k ∈ range (post - mid).toNat, sigI u (mid + k) * sigI p ((n : ℤ) - mid + W - 1 - k + i) =
        ∑ k ∈ range (post - mid).toNat, (fun m : ℤ => sigI u m * sigI v ((n : ℤ) + i - m)) (mid + k) := by
      apply sum_congr rfl
      intro k hk
      have hk' : (k : ℤ) < post - mid := by have := mem_range.1 hk; omega
      simp only
      congr 1
      rw [hp3]
      by_cases c : (W : ℤ) - 1 ≤ (n : ℤ) - mid + W - 1 - k + i ∧
          (n : ℤ) - mid + W - 1 - k + i < W - 1 + min W v.length
      · rw [if_pos c]
        congr 1; omega
      · rw [if_neg c, if_neg (by omega)]
        symm
        by_cases c' : (n : ℤ) + i - (mid + k) < 0
        · exact sigI_neg c'
        · exact sigI_ge (by omega)
    rw [h1, h2, h3, add_assoc (f i), add_assoc (f i), sum_three (fun m : ℤ => sigI u m * sigI v ((n : ℤ) + i - m)) mF pre mid post (by omega) (by omega) (by omega)]
    congr 1
    have hw := convAt_window u v (n + i) mF.toNat (post - mF).toNat (by omega) (by omega)
    have e : ((mF.toNat : ℕ) : ℤ) = mF := by omega
    rw [e] at hw
    push_cast at hw
    exact hw
  rw [reg_congr hval]
  obtain ⟨out', e1, e2, e3⟩ := storeV_sig (mem := out) (p := pout)
    (v := (reg W (fun i => f i + convAt u v (n + i))).take iw) (by simp; omega)
  refine ⟨out', e1, e2, fun j => ?_⟩
  rw [e3]
  have hl : ((reg W (fun i => f i + convAt u v (n + i))).take iw).length = iw := by simp; omega
  rw [hl]
  by_cases c : pout ≤ j ∧ j < pout + iw
  · rw [if_pos c, if_pos (by omega)]
    have : sig ((reg W (fun i => f i + convAt u v (n + i))).take iw) (j - pout) =
        sig (reg W (fun i => f i + convAt u v (n + i))) (j - pout) := by
      unfold sig
      simp only [List.getD_eq_getElem?_getD, List.getElem?_take]
      rw [if_pos (by omega)]
    rw [this, sig_reg, if_pos (by omega), hf2 _ (by omega)]
    have : pout + (j - pout) = j := by omega
    rw [this]
  · rw [if_neg c, if_neg (by omega)]

theorem reduceVecBody_done {W : ℕ} (hW : 0 < W) {r : ReduceOp R} (hr : AddsExactly r) (junk : List R)
    (hj : junk.length = W) (u v out : List R) (n : ℕ) (acc : Bool) :
    ∃ out', reduceVecBody W junk r u v out n acc = .ok out' ∧ ConvDone acc u v out out' n := by
  obtain ⟨p, hp1, hp2, hp3⟩ := paddingOf_eq W hW v
  unfold reduceVecBody
  rw [hp1, Out.ok_bind]
  have hcount : ∀ k, k < (out.length + W - 1) / W → k * W < out.length := by
    intro k hk
    have : (k + 1) * W ≤ out.length + W - 1 := by
      calc (k + 1) * W ≤ (out.length + W - 1) / W * W := Nat.mul_le_mul_right _ hk
        _ ≤ _ := Nat.div_mul_le_self _ _
    have e : (k + 1) * W = k * W + W := by ring
    omega
  obtain ⟨s, hs, hl, hi⟩ := forN_inv (body := fun k (out : List R) =>
      reduceVecStep W junk r u v p out ((n : ℤ) + (k * W : Nat)) (k * W) acc)
    (fun k s => s.length = out.length ∧ ∀ j, j < out.length → sig s j =
      if j < k * W then (if acc then sig out j else 0) + convAt u v (n + j) else sig out j)
    ((out.length + W - 1) / W) out ⟨rfl, by simp⟩ (by
      rintro k s hk ⟨hl, hs⟩
      have hkW := hcount k hk
      obtain ⟨s', e1, e2, e3⟩ := reduceVecStep_eq hW hr junk hj u v p s hp1 (n + k * W) (k * W) acc
        (by rw [hl]; exact hkW)
      refine ⟨s', by rw [← e1]; push_cast; rfl, by rw [e2, hl], fun j hj => ?_⟩
      have e : (k + 1) * W = k * W + W := by ring
      rw [e3, e]
      by_cases c : k * W ≤ j ∧ j < k * W + W ∧ j < s.length
      · rw [if_pos c, if_pos c.2.1, hs j hj, if_neg (show ¬ j < k * W by omega)]
        have : n + k * W + (j - k * W) = n + j := by omega
        rw [this]
      · rw [if_neg c, hs j hj]
        by_cases c' : j < k * W
        · rw [if_pos c', if_pos (show j < k * W + W by omega)]
        · rw [if_neg c', if_neg (show ¬ j < k * W + W by omega)])
  refine ⟨s, hs, hl, fun j hj => ?_⟩
  rw [hi j hj, if_pos]
  have h1 := Nat.lt_div_mul_add (a := out.length + W - 1) hW
  omega

theorem convolutionReduceVec_done (vec : Bool) {W : ℕ} (hW : 0 < W) {r : ReduceOp R} (hr : AddsExactly r)
    (junk : List R) (hj : junk.length = if vec then W else 1) (u v out : List R) (n : ℕ) (acc : Bool) :
    ∃ out', convolutionReduceVec vec W junk r u v out n acc = .ok out' ∧ ConvDone acc u v out out' n := by
  unfold convolutionReduceVec
  have hW' : 0 < if vec then W else 1 := by split <;> omega
  simp only
  split
  · obtain ⟨o, h1, h2⟩ := reduceVecBody_done hW' hr junk hj v u out n acc
    exact ⟨o, h1, h2.comm⟩
  · exact reduceVecBody_done hW' hr junk hj u v out n acc

end
end Verif
