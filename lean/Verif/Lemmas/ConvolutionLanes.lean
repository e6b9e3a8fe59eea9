import Verif.Lemmas.Convolution3

/-! What one lane of the vectorised reducing convolution computes, for arbitrary (also rounded) arithmetic. -/

set_option linter.unusedSimpArgs false
set_option linter.unusedSectionVars false
set_option linter.unusedTactic false

namespace Verif
open Finset

section
variable {R : Type u} [Zero R] [Add R] [Mul R]

/-- the carry a lane starts with -/
def laneCarry (r : ReduceOp R) : R :=
  match r.comp with
  | none => 0
  | some (c0, _) => c0

/-- one accumulation step of a lane -/
def laneStep (r : ReduceOp R) (s : R × R) (t : R) : R × R :=
  match r.comp with
  | none => (s.1, r.op s.2 t)
  | some (_, f) => f s.1 s.2 t

/-- the main loop of a lane: `m` blocks of four terms, carry and sum -/
def laneBlocks (r : ReduceOp R) (T : ℕ → R) (start : ℕ) : ℕ → R × R → R × R
  | 0, s => s
  | m + 1, s => laneStep r (laneBlocks r T start m s)
      ((T (start + 4 * m) + T (start + 4 * m + 1)) + (T (start + 4 * m + 2) + T (start + 4 * m + 3)))

/-- the first up to three terms of a lane -/
def laneHead (T : ℕ → R) (c : ℕ) (s : R) : R :=
  let s := if c % 2 = 1 then s + T 0 else s
  if c / 2 % 2 = 1 then s + (T (c % 2) + T (c % 2 + 1)) else s

/-- `c` terms of a lane -/
def laneLoop (r : ReduceOp R) (T : ℕ → R) (c : ℕ) (s : R) : R :=
  (laneBlocks r T (c % 4) (c / 4) (laneCarry r, laneHead T c s)).2

theorem laneBlocks_congr (r : ReduceOp R) {T T' : ℕ → R} (start m : ℕ) (s : R × R)
    (h : ∀ k, k < start + 4 * m → T k = T' k) : laneBlocks r T start m s = laneBlocks r T' start m s := by
  induction m with
  | zero => rfl
  | succ m ih =>
    simp only [laneBlocks]
    rw [ih fun k hk => h k (by omega), h _ (by omega), h _ (by omega), h _ (by omega), h _ (by omega)]

theorem laneLoop_congr (r : ReduceOp R) {T T' : ℕ → R} (c : ℕ) (s : R)
    (h : ∀ k, k < c → T k = T' k) : laneLoop r T c s = laneLoop r T' c s := by
  unfold laneLoop
  have hh : laneHead T c s = laneHead T' c s := by
    unfold laneHead
    by_cases b0 : c % 2 = 1 <;> by_cases b1 : c / 2 % 2 = 1 <;> simp only [b0, b1, if_true, if_false]
    · rw [h 0 (by omega), h 1 (by omega), h (1 + 1) (by omega)]
    · rw [h 0 (by omega)]
    · rw [h (c % 2) (by omega), h (c % 2 + 1) (by omega)]
  rw [hh, laneBlocks_congr r _ _ _ fun k hk => h k (by omega)]

theorem lift_step_reg (r : ReduceOp R) {W : ℕ} {c0 : R} {f} (h : r.comp = some (c0, f)) (c s x : ℕ → R) :
    ∃ C F, (r.lift W).comp = some (C, F) ∧
      F (reg W c) (reg W s) (reg W x) =
        (reg W (fun i => (f (c i) (s i) (x i)).1), reg W (fun i => (f (c i) (s i) (x i)).2)) := by
  refine ⟨_, _, by simp [ReduceOp.lift, h]; exact ⟨rfl, rfl⟩, ?_⟩
  have : List.zip (reg W s) (reg W x) = (List.range W).map (fun i => (s i, x i)) := by
    unfold reg List.zip
    rw [List.zipWith_map]
    simp
  simp only [this]
  unfold reg
  simp only [List.zipWith_map, List.zipWith_self, List.map_map]

/-- register of carries -/
def carryReg (r : ReduceOp R) (W : ℕ) (c : ℕ → R) : List R :=
  match r.comp with
  | none => []
  | some _ => reg W c

theorem reduceLoop_lanes {W : ℕ} {u b : List R} {p1 p2 count : ℤ} (r : ReduceOp R)
    (f : ℕ → R) (hb : ∀ k : ℕ, (k : ℤ) < count →
      0 ≤ p1 + k ∧ p1 + k < u.length ∧ 0 ≤ p2 - k ∧ p2 - k + W ≤ b.length) :
    convolutionReduceLoop W u p1 b p2 (reg W f) count r =
      .ok (reg W (fun i => laneLoop r (fun k => sigI u (p1 + k) * sigI b (p2 - k + i)) count.toNat (f i))) := by
  set c := count.toNat with hc
  set T : ℕ → ℕ → R := fun i k => sigI u (p1 + k) * sigI b (p2 - k + i) with hT
  have lt : ∀ k, k < c → loopTerm W u p1 b p2 k = .ok (reg W (fun i => T i k)) := by
    intro k hk
    obtain ⟨a1, a2, a3, a4⟩ := hb k (by omega)
    exact loopTerm_eq a1 a2 a3 a4
  have tb0 : c.testBit 0 = decide (c % 2 = 1) := by simp [Nat.testBit_zero]
  have tb1 : c.testBit 1 = decide (c / 2 % 2 = 1) := by
    rw [Nat.testBit_succ, Nat.testBit_zero]
  have main : ∀ (start : ℕ) (g : ℕ → R), start = c % 4 →
      (do
        let res ← forN ((c - start + 3) / 4) (fun j (s : List R × List R) => do
          let idx := start + 4 * j
          let v1 ← loopTerm W u p1 b p2 idx
          let v2 ← loopTerm W u p1 b p2 (idx + 1)
          let v3 ← loopTerm W u p1 b p2 (idx + 2)
          let v4 ← loopTerm W u p1 b p2 (idx + 3)
          let t := List.zipWith (· + ·) (List.zipWith (· + ·) v1 v2) (List.zipWith (· + ·) v3 v4)
          match (r.lift W).comp with
          | none => pure (s.1, (r.lift W).op s.2 t)
          | some (_, f) => pure (f s.1 s.2 t))
          ((match r.comp with
            | none => []
            | some (c0, _) => List.replicate W c0), reg W g)
        pure res.2 : Out (List R)) =
      .ok (reg W (fun i => (laneBlocks r (T i) (c % 4) (c / 4) (laneCarry r, g i)).2)) := by
    intro start g hst
    have key := forN_inv (body := fun j (s : List R × List R) => do
          let idx := start + 4 * j
          let v1 ← loopTerm W u p1 b p2 idx
          let v2 ← loopTerm W u p1 b p2 (idx + 1)
          let v3 ← loopTerm W u p1 b p2 (idx + 2)
          let v4 ← loopTerm W u p1 b p2 (idx + 3)
          let t := List.zipWith (· + ·) (List.zipWith (· + ·) v1 v2) (List.zipWith (· + ·) v3 v4)
          match (r.lift W).comp with
          | none => pure (s.1, (r.lift W).op s.2 t)
          | some (_, f) => pure (f s.1 s.2 t))
      (fun j s => s = (carryReg r W (fun i => (laneBlocks r (T i) start j (laneCarry r, g i)).1),
          reg W (fun i => (laneBlocks r (T i) start j (laneCarry r, g i)).2)))
      ((c - start + 3) / 4) ((match r.comp with
            | none => []
            | some (c0, _) => List.replicate W c0), reg W g) (by
        simp only [laneBlocks]
        refine Prod.ext ?_ rfl
        simp only [carryReg, laneCarry]
        cases r.comp with
        | none => rfl
        | some cf => simp only [replicate_reg])
    replace key := key (by
        rintro j s hj rfl
        refine ⟨_, ?_, rfl⟩
        simp only
        rw [lt _ (by omega), Out.ok_bind, lt _ (by omega), Out.ok_bind, lt _ (by omega), Out.ok_bind,
          lt _ (by omega), Out.ok_bind]
        simp only [zipWith_reg]
        cases hcomp : r.comp with
        | none =>
          have : (r.lift W).comp = none := by simp [ReduceOp.lift, hcomp]
          rw [this]
          simp only [ReduceOp.lift, zipWith_reg, Out.pure_def, laneBlocks, laneStep, hcomp, carryReg]
        | some cf =>
          obtain ⟨c0, F⟩ := cf
          obtain ⟨C, F', e1, e2⟩ := lift_step_reg r (W := W) hcomp
            (fun i => (laneBlocks r (T i) start j (laneCarry r, g i)).1)
            (fun i => (laneBlocks r (T i) start j (laneCarry r, g i)).2)
            (fun i => T i (start + 4 * j) + T i (start + 4 * j + 1) +
              (T i (start + 4 * j + 2) + T i (start + 4 * j + 3)))
          rw [e1]
          simp only [carryReg, hcomp, e2, Out.pure_def, laneBlocks, laneStep])
    obtain ⟨s, hs, hi⟩ := key
    rw [hs, Out.ok_bind, hi]
    simp only [Out.pure_def]
    have : (c - start + 3) / 4 = c / 4 := by omega
    rw [this, hst]
  unfold convolutionReduceLoop
  simp only [← hc, tb0, tb1, laneLoop]
  by_cases b0 : c % 2 = 1
  · by_cases b1 : c / 2 % 2 = 1
    · simp only [b0, b1, decide_true, if_true, zero_add]
      rw [lt 0 (by omega), Out.ok_bind, lt (0 + 1) (by omega), Out.ok_bind, lt (0 + 1 + 1) (by omega), Out.ok_bind]
      simp only [zipWith_reg]
      refine (main (0 + 1 + 2) (fun i => f i + T i 0 + (T i 1 + T i 2)) (by omega)).trans ?_
      simp only [laneHead, b0, b1, if_true]
      rfl
    · simp only [b0, b1, decide_true, decide_false, Bool.false_eq_true, if_true, if_false]
      rw [lt 0 (by omega), Out.ok_bind]
      simp only [zipWith_reg]
      refine (main (0 + 1) (fun i => f i + T i 0) (by omega)).trans ?_
      simp only [laneHead, b0, b1, if_true, if_false]
      rfl
  · by_cases b1 : c / 2 % 2 = 1
    · have b0' : c % 2 = 0 := by omega
      simp only [b0, b1, decide_true, decide_false, Bool.false_eq_true, if_true, if_false]
      rw [lt 0 (by omega), Out.ok_bind, lt (0 + 1) (by omega), Out.ok_bind]
      simp only [zipWith_reg]
      refine (main (0 + 2) (fun i => f i + (T i 0 + T i 1)) (by omega)).trans ?_
      simp only [laneHead, b0', b1, if_true, zero_ne_one, if_false]
      rfl
    · simp only [b0, b1, decide_false, Bool.false_eq_true, if_false]
      refine (main 0 f (by omega)).trans ?_
      simp only [laneHead, b0, b1, if_false]
      rfl

/-- What `ConvolutionReduceVec` leaves at output position `j`: three runs of the lane loop over consecutive
windows `[a, b)`, `[b, c)`, `[c, d)` of the first input. -/
def LaneConv (r : ReduceOp R) (u v : List R) (N : ℕ) (s0 x : R) : Prop :=
  ∃ a b c d : ℕ, a ≤ b ∧ b ≤ c ∧ c ≤ d ∧ d ≤ max a u.length ∧ (a = 0 ∨ a + v.length ≤ N + 1) ∧
    (u.length ≤ d ∨ N + 1 ≤ d) ∧
    x = laneLoop r (fun k => sigI u ((c : ℤ) + k) * sigI v ((N : ℤ) - (c + k))) (d - c)
      (laneLoop r (fun k => sigI u ((b : ℤ) + k) * sigI v ((N : ℤ) - (b + k))) (c - b)
        (laneLoop r (fun k => sigI u ((a : ℤ) + k) * sigI v ((N : ℤ) - (a + k))) (b - a) s0))

theorem reduceVecStep_lanes {W : ℕ} (hW : 0 < W) (r : ReduceOp R) (junk : List R)
    (hj : junk.length = W)
    (u v padding out : List R) (hp : paddingOf W v = .ok padding) (n : ℕ) (pout : ℕ) (acc : Bool)
    (hpo : pout < out.length) :
    ∃ out', reduceVecStep W junk r u v padding out n pout acc = .ok out' ∧ out'.length = out.length ∧
      ∀ j, if pout ≤ j ∧ j < pout + W ∧ j < out.length
        then LaneConv r u v (n + (j - pout)) (if acc then sig out j else 0) (sig out' j)
        else sig out' j = sig out j := by
  obtain ⟨p, hp1, hp2, hp3⟩ := paddingOf_eq W hW v
  obtain rfl : p = padding := by simpa using hp1.symm.trans hp
  set iw := min (out.length - pout) W with hiw
  obtain ⟨f, hf1, hf2⟩ : ∃ f : ℕ → R, (if acc then loadPartialFront W junk out pout iw
      else pure (List.replicate W 0)) = .ok (reg W f) ∧
      ∀ i, i < iw → f i = if acc then sig out (pout + i) else 0 := by
    cases acc with
    | false =>
      refine ⟨fun _ => 0, ?_, fun i _ => by simp⟩
      simp [replicate_reg]
    | true =>
      simp only [if_true]
      unfold loadPartialFront
      rw [loadV_reg (by omega), Out.ok_bind]
      refine ⟨sig (reg iw (fun i => sig out (pout + i)) ++ (junk.drop iw).take (W - iw)), ?_, ?_⟩
      · simp only [Out.pure_def]
        congr 1
        exact reg_of_length (by simp [hj]; omega)
      · intro i hi
        have : sig (reg iw (fun i => sig out (pout + i)) ++ (junk.drop iw).take (W - iw)) i =
            sig (reg iw (fun i => sig out (pout + i))) i := by
          unfold sig
          simp only [List.getD_eq_getElem?_getD]
          rw [List.getElem?_append_left (by simpa using hi)]
        rw [this, sig_reg, if_pos hi]
  unfold reduceVecStep
  simp only [← hiw]
  rw [hf1, Out.ok_bind]
  set mF : ℤ := max 0 ((n : ℤ) - v.length + 1) with hmF
  set mL : ℤ := min (u.length : ℤ) ((n : ℤ) + W) with hmL
  set pre : ℤ := max mF (min mL ((n : ℤ) + W - v.length)) with hpre
  set mid : ℤ := max pre (min (n : ℤ) mL) with hmid
  set post : ℤ := max mid mL with hpost
  have hlen : (p.length : ℤ) = 4 * W - 2 := by omega
  rw [reduceLoop_lanes r _ (by
      intro k hk
      refine ⟨by omega, by omega, by omega, by omega⟩), Out.ok_bind,
    reduceLoop_lanes r _ (by
      intro k hk
      refine ⟨by omega, by omega, by omega, by omega⟩), Out.ok_bind,
    reduceLoop_lanes r _ (by
      intro k hk
      refine ⟨by omega, by omega, by omega, by omega⟩), Out.ok_bind]
  set G : ℕ → R := fun i =>
    laneLoop r (fun k => sigI u (mid + k) * sigI v ((n : ℤ) + i - (mid + k))) (post - mid).toNat
      (laneLoop r (fun k => sigI u (pre + k) * sigI v ((n : ℤ) + i - (pre + k))) (mid - pre).toNat
        (laneLoop r (fun k => sigI u (mF + k) * sigI v ((n : ℤ) + i - (mF + k))) (pre - mF).toNat (f i))) with hG
  have hval : ∀ i : ℕ, i < W →
      laneLoop r (fun k => sigI u (mid + k) * sigI p ((n : ℤ) - mid + W - 1 - k + i)) (post - mid).toNat
        (laneLoop r (fun k => sigI u (pre + k) * sigI v (max 0 ((n : ℤ) - pre) - k + i)) (mid - pre).toNat
          (laneLoop r (fun k => sigI u (mF + k) *
            sigI p ((p.length : ℤ) - W + 1 + n - mF - v.length - k + i)) (pre - mF).toNat (f i))) = G i := by
    intro i hi
    have h1 : ∀ k, k < (pre - mF).toNat → sigI u (mF + k) *
          sigI p ((p.length : ℤ) - W + 1 + n - mF - v.length - k + i) =
        sigI u (mF + k) * sigI v ((n : ℤ) + i - (mF + k)) := by
      intro k hk
      congr 1
      rw [hp3]
      by_cases c : 3 * (W : ℤ) - 1 - min W v.length ≤ (p.length : ℤ) - W + 1 + n - mF - v.length - k + i ∧
          (p.length : ℤ) - W + 1 + n - mF - v.length - k + i < 3 * (W : ℤ) - 1
      · rw [if_neg (by omega), if_pos c]
        congr 1; omega
      · rw [if_neg (by omega), if_neg c]
        symm
        by_cases c' : (n : ℤ) + i - (mF + k) < 0
        · exact sigI_neg c'
        · exact sigI_ge (by omega)
    have h2 : ∀ k, k < (mid - pre).toNat → sigI u (pre + k) * sigI v (max 0 ((n : ℤ) - pre) - k + i) =
        sigI u (pre + k) * sigI v ((n : ℤ) + i - (pre + k)) := by
      intro k hk
      congr 2
      omega
    have h3 : ∀ k, k < (post - mid).toNat → sigI u (mid + k) * sigI p ((n : ℤ) - mid + W - 1 - k + i) =
        sigI u (mid + k) * sigI v ((n : ℤ) + i - (mid + k)) := by
      intro k hk
      congr 1
      rw [hp3]
      by_cases c : (W : ℤ) - 1 ≤ (n : ℤ) - mid + W - 1 - k + i ∧
          (n : ℤ) - mid + W - 1 - k + i < W - 1 + min W v.length
      · rw [if_pos c]
        congr 1; omega
      · rw [if_neg c, if_neg (by omega)]
        symm
        by_cases c' : (n : ℤ) + i - (mid + k) < 0
        · exact sigI_neg c'
        · exact sigI_ge (by omega)
    rw [laneLoop_congr r _ _ h1, laneLoop_congr r _ _ h2, laneLoop_congr r _ _ h3]
  rw [reg_congr hval]
  obtain ⟨out', e1, e2, e3⟩ := storeV_sig (mem := out) (p := pout)
    (v := (reg W G).take iw) (by simp; omega)
  refine ⟨out', e1, e2, fun j => ?_⟩
  rw [e3]
  have hl : ((reg W G).take iw).length = iw := by simp; omega
  rw [hl]
  by_cases c : pout ≤ j ∧ j < pout + iw
  · rw [if_pos c, if_pos (by omega)]
    have : sig ((reg W G).take iw) (j - pout) = sig (reg W G) (j - pout) := by
      unfold sig
      simp only [List.getD_eq_getElem?_getD, List.getElem?_take]
      rw [if_pos (by omega)]
    rw [this, sig_reg, if_pos (show j - pout < W by omega)]
    have hjj : pout + (j - pout) = j := by omega
    have hf := hf2 (j - pout) (by omega)
    rw [hjj] at hf
    refine ⟨mF.toNat, pre.toNat, mid.toNat, post.toNat, by omega, by omega, by omega, by omega, by omega,
      by omega, ?_⟩
    rw [← hf, hG]
    have a1 : ((mF.toNat : ℕ) : ℤ) = mF := by omega
    have a2 : ((pre.toNat : ℕ) : ℤ) = pre := by omega
    have a3 : ((mid.toNat : ℕ) : ℤ) = mid := by omega
    have b1 : pre.toNat - mF.toNat = (pre - mF).toNat := by omega
    have b2 : mid.toNat - pre.toNat = (mid - pre).toNat := by omega
    have b3 : post.toNat - mid.toNat = (post - mid).toNat := by omega
    rw [a1, a2, a3, b1, b2, b3]
    push_cast
    rfl
  · rw [if_neg c, if_neg (by omega)]

theorem reduceVecBody_lanes {W : ℕ} (hW : 0 < W) (r : ReduceOp R) (junk : List R)
    (hj : junk.length = W) (u v out : List R) (n : ℕ) (acc : Bool) :
    ∃ out', reduceVecBody W junk r u v out n acc = .ok out' ∧ out'.length = out.length ∧
      ∀ j, j < out.length → LaneConv r u v (n + j) (if acc then sig out j else 0) (sig out' j) := by
  obtain ⟨p, hp1, hp2, hp3⟩ := paddingOf_eq W hW v
  unfold reduceVecBody
  rw [hp1, Out.ok_bind]
  have hcount : ∀ k, k < (out.length + W - 1) / W → k * W < out.length := by
    intro k hk
    have : (k + 1) * W ≤ out.length + W - 1 := by
      calc (k + 1) * W ≤ (out.length + W - 1) / W * W := Nat.mul_le_mul_right _ hk
        _ ≤ _ := Nat.div_mul_le_self _ _
    have e : (k + 1) * W = k * W + W := by ring
    omega
  have key := forN_inv (body := fun k (out : List R) =>
      reduceVecStep W junk r u v p out ((n : ℤ) + (k * W : Nat)) (k * W) acc)
    (fun k s => s.length = out.length ∧ ∀ j, j < out.length →
      if j < k * W then LaneConv r u v (n + j) (if acc then sig out j else 0) (sig s j)
      else sig s j = sig out j)
    ((out.length + W - 1) / W) out ⟨rfl, by simp⟩
  replace key := key (by
      rintro k s hk ⟨hl, hs⟩
      have hkW := hcount k hk
      obtain ⟨s', e1, e2, e3⟩ := reduceVecStep_lanes hW r junk hj u v p s hp1 (n + k * W) (k * W) acc
        (by rw [hl]; exact hkW)
      refine ⟨s', by rw [← e1]; push_cast; rfl, by rw [e2, hl], fun j hj => ?_⟩
      have e : (k + 1) * W = k * W + W := by ring
      have h3 := e3 j
      have h4 := hs j hj
      rw [e]
      by_cases c : k * W ≤ j ∧ j < k * W + W ∧ j < s.length
      · rw [if_pos c] at h3
        rw [if_neg (show ¬ j < k * W by omega)] at h4
        rw [if_pos c.2.1]
        have : n + k * W + (j - k * W) = n + j := by omega
        rw [this, h4] at h3
        exact h3
      · rw [if_neg c] at h3
        rw [h3]
        by_cases c' : j < k * W
        · rw [if_pos c'] at h4
          rw [if_pos (show j < k * W + W by omega)]
          exact h4
        · rw [if_neg c'] at h4
          rw [if_neg (show ¬ j < k * W + W by omega)]
          exact h4)
  obtain ⟨s, hs, hl, hi⟩ := key
  refine ⟨s, hs, hl, fun j hj => ?_⟩
  have := hi j hj
  rwa [if_pos] at this
  have h1 := Nat.lt_div_mul_add (a := out.length + W - 1) hW
  omega

end
end Verif
