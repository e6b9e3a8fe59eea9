import Verif.Model.IirFilter
import Verif.Spec.DifferenceEquation
import Verif.Lemmas.Convolution
import Mathlib.Tactic.FieldSimp
import Mathlib.Tactic.LinearCombination

set_option linter.unusedSimpArgs false
set_option linter.unusedSectionVars false

namespace Verif
open Finset

theorem feedAll_inv_mem {K : Type} {σ : Type} {step : σ → K → Out (K × σ)} (P : K → Prop) (I : List K → List K → σ → Prop)
    (hstep : ∀ xs ys s x, P x → I xs ys s → ∃ y s', step s x = .ok (y, s') ∧ I (xs ++ [x]) (ys ++ [y]) s') :
    ∀ (zs xs ys : List K) (s : σ), (∀ z ∈ zs, P z) → I xs ys s →
      ∃ ws s', feedAll step zs s = .ok (ws, s') ∧ I (xs ++ zs) (ys ++ ws) s'
  | [], xs, ys, s, _, h => ⟨[], s, rfl, by simpa using h⟩
  | z :: zs, xs, ys, s, hz, h => by
    obtain ⟨y, s', h1, h2⟩ := hstep xs ys s z (hz z (by simp)) h
    obtain ⟨ws, s'', h3, h4⟩ := feedAll_inv_mem P I hstep zs (xs ++ [z]) (ys ++ [y]) s' (fun w hw => hz w (by simp [hw])) h2
    refine ⟨y :: ws, s'', ?_, by simpa using h4⟩
    simp [feedAll, h1, h3]

section
variable {K : Type} [Zero K]

/-- the last `L` samples of a signal that was preceded by silence -/
def hist (L : ℕ) (xs : List K) : List K := reg L (fun i => sigI xs ((xs.length : ℤ) - L + i))

@[simp] theorem hist_length (L : ℕ) (xs : List K) : (hist L xs).length = L := by simp [hist]

theorem sigI_append_lt (xs zs : List K) {i : ℤ} (h : i < xs.length) : sigI (xs ++ zs) i = sigI xs i := by
  unfold sigI
  split
  · unfold sig
    simp only [List.getD_eq_getElem?_getD]
    rw [List.getElem?_append_left (by omega)]
  · rfl

theorem sigI_append_last (xs : List K) (x : K) : sigI (xs ++ [x]) (xs.length : ℤ) = x := by
  rw [sigI_nat]; simp [sig]

theorem hist_nil (L : ℕ) : hist L ([] : List K) = List.replicate L 0 := by
  unfold hist
  rw [replicate_reg]
  apply reg_congr
  intro i _
  unfold sigI; split <;> simp [sig]

theorem shiftIn_hist {L : ℕ} (hL : 0 < L) (xs : List K) (x : K) :
    shiftIn (hist L xs) x = .ok (hist L (xs ++ [x])) := by
  unfold shiftIn
  rw [if_neg (by intro h; have := congrArg List.length h; simp at this; omega)]
  congr 1
  apply list_ext_sig (by simp; omega)
  intro i hi
  have hi' : i < L := by simp at hi; omega
  have e1 : sig ((hist L xs).drop 1 ++ [x]) i = if i < L - 1 then sig (hist L xs) (i + 1) else x := by
    unfold sig
    simp only [List.getD_eq_getElem?_getD, List.getElem?_append, List.length_drop, hist_length,
      List.getElem?_drop]
    split
    · rw [add_comm]
    · have : i - (L - 1) = 0 := by omega
      simp [this]
  rw [e1]
  unfold hist
  rw [sig_reg, sig_reg, if_pos hi']
  split
  · rw [if_pos (by omega), sigI_append_lt _ _ (by simp; omega)]
    congr 1
    simp; omega
  · have : (((xs ++ [x]).length : ℕ) : ℤ) - L + i = xs.length := by simp; omega
    rw [this, sigI_append_last]

theorem hist_drop (L m : ℕ) (h : m ≤ L) (xs : List K) : (hist L xs).drop (L - m) = hist m xs := by
  apply list_ext_sig (by simp; omega)
  intro i hi
  have hi' : i < m := by simp at hi; omega
  have : sig ((hist L xs).drop (L - m)) i = sig (hist L xs) (L - m + i) := by
    unfold sig; simp [List.getD_eq_getElem?_getD, List.getElem?_drop]
  rw [this]
  unfold hist
  rw [sig_reg, sig_reg, if_pos hi', if_pos (by omega)]
  congr 1
  omega

end

section
variable {K : Type} [Zero K] [Add K] [Sub K] [Mul K]

/-- the three most recent samples -/
def sec3 (l : List K) : Section3 K :=
  ⟨sigI l ((l.length : ℤ) - 3), sigI l ((l.length : ℤ) - 2), sigI l ((l.length : ℤ) - 1)⟩

theorem sec3_snoc (l : List K) (v : K) : sec3 (l ++ [v]) = ⟨(sec3 l).s1, (sec3 l).s2, v⟩ := by
  unfold sec3
  simp only [List.length_append, List.length_singleton]
  rw [sigI_append_lt _ _ (by push_cast; omega), sigI_append_lt _ _ (by push_cast; omega)]
  have : (((l.length + 1 : ℕ) : ℤ) - 1) = l.length := by push_cast; ring
  rw [this, sigI_append_last]
  congr 2 <;> (push_cast; ring)

/-- what one section outputs -/
def sectionOut (b : Biquad K) (X : List K) (v : K) (Y : List K) : K :=
  (sec3 (X ++ [v])).s0 * b.n0 + (sec3 (X ++ [v])).s1 * b.n1 + (sec3 (X ++ [v])).s2 * b.n2 -
    ((sec3 Y).s1 * b.d0 + (sec3 Y).s2 * b.d1)

/-- the value entering section `i` at the new time step -/
def chainVal (sys : List (Biquad K)) (X : ℕ → List K) (x : K) : ℕ → K
  | 0 => x
  | i + 1 => if h : i < sys.length then sectionOut sys[i] (X i) (chainVal sys X x i) (X (i + 1))
      else chainVal sys X x i

theorem cascade_feed1 (sys : List (Biquad K)) (L : ℕ) (hL : sys.length + 1 ≤ L) (X : ℕ → List K) (x : K) :
    CascadedForm.feed1 sys ⟨(List.range L).map fun i => sec3 (X i)⟩ x =
      .ok (chainVal sys X x L, ⟨(List.range L).map fun i => sec3 (X i ++ [chainVal sys X x i])⟩) := by
  unfold CascadedForm.feed1
  rw [cassert_true (by simpa using hL), Out.ok_bind]
  simp only [List.length_map, List.length_range]
  obtain ⟨st, h1, h2, h3⟩ := forN_inv (body := CascadedForm.sectionStep sys)
    (fun i st => st.1 = (List.range L).map (fun j => if j < i then sec3 (X j ++ [chainVal sys X x j]) else sec3 (X j))
      ∧ st.2 = chainVal sys X x i) L ((List.range L).map (fun i => sec3 (X i)), x)
    ⟨by simp, rfl⟩
    (by
      rintro i ⟨secs, out⟩ hi ⟨rfl, rfl⟩
      unfold CascadedForm.sectionStep
      simp only
      have hcur : rd ((List.range L).map (fun j => if j < i then sec3 (X j ++ [chainVal sys X x j])
          else sec3 (X j))) (i : ℤ) = .ok (sec3 (X i)) := by
        rw [rd_ofNat (by simpa using hi)]; simp
      rw [hcur, Out.ok_bind]
      have hnew : (⟨(sec3 (X i)).s1, (sec3 (X i)).s2, chainVal sys X x i⟩ : Section3 K) =
          sec3 (X i ++ [chainVal sys X x i]) := (sec3_snoc _ _).symm
      rw [hnew, wr_eq (by omega) (by simpa using hi), Out.ok_bind]
      have hset : ((List.range L).map (fun j => if j < i then sec3 (X j ++ [chainVal sys X x j])
          else sec3 (X j))).set ((i : ℤ).toNat) (sec3 (X i ++ [chainVal sys X x i])) =
          (List.range L).map (fun j => if j < i + 1 then sec3 (X j ++ [chainVal sys X x j]) else sec3 (X j)) := by
        apply List.ext_getElem (by simp)
        intro j h1 h2
        simp only [Int.toNat_natCast, List.getElem_set, List.getElem_map, List.getElem_range]
        by_cases e : i = j
        · subst e; simp
        · rw [if_neg e]
          by_cases c : j < i
          · rw [if_pos c, if_pos (by omega)]
          · rw [if_neg c, if_neg (by omega)]
      rw [hset]
      by_cases c : i < sys.length
      · rw [if_pos c]
        have hnext : rd ((List.range L).map (fun j => if j < i + 1 then sec3 (X j ++ [chainVal sys X x j])
            else sec3 (X j))) ((i : ℤ) + 1) = .ok (sec3 (X (i + 1))) := by
          have : ((i : ℤ) + 1) = ((i + 1 : ℕ) : ℤ) := by push_cast; ring
          rw [this, rd_ofNat (by simp; omega)]; simp
        rw [hnext, Out.ok_bind, rd_ofNat c, Out.ok_bind]
        refine ⟨_, rfl, rfl, ?_⟩
        simp only [chainVal]
        rw [dif_pos c]
        unfold sectionOut
        rw [sec3_snoc]
      · rw [if_neg c]
        refine ⟨_, rfl, rfl, ?_⟩
        simp only [chainVal]
        rw [dif_neg c])
  rw [h1, Out.ok_bind, h2, h3, Out.pure_def]
  congr 3
  apply List.map_congr_left
  intro i hi
  rw [if_pos (by simpa using hi)]

end

section
variable {K : Type} [Field K]

theorem feedAll_inv {σ : Type} {step : σ → K → Out (K × σ)} (I : List K → List K → σ → Prop)
    (hstep : ∀ xs ys s x, I xs ys s → ∃ y s', step s x = .ok (y, s') ∧ I (xs ++ [x]) (ys ++ [y]) s') :
    ∀ (zs xs ys : List K) (s : σ), I xs ys s →
      ∃ ws s', feedAll step zs s = .ok (ws, s') ∧ I (xs ++ zs) (ys ++ ws) s'
  | [], xs, ys, s, h => ⟨[], s, rfl, by simpa using h⟩
  | z :: zs, xs, ys, s, h => by
    obtain ⟨y, s', h1, h2⟩ := hstep xs ys s z h
    obtain ⟨ws, s'', h3, h4⟩ := feedAll_inv I hstep zs (xs ++ [z]) (ys ++ [y]) s' h2
    refine ⟨y :: ws, s'', ?_, by simpa using h4⟩
    simp [feedAll, h1, h3]

theorem feedAll_append {σ : Type} (step : σ → K → Out (K × σ)) :
    ∀ (xs zs : List K) (s : σ), feedAll step (xs ++ zs) s = (do
      let (y, s) ← feedAll step xs s
      let (y', s) ← feedAll step zs s
      pure (y ++ y', s))
  | [], zs, s => by
    simp only [List.nil_append, feedAll, Out.ok_bind]
    cases feedAll step zs s <;> rfl
  | x :: xs, zs, s => by
    simp only [List.cons_append, feedAll]
    cases h : step s x with
    | ok r =>
      simp only [Out.ok_bind]
      rw [feedAll_append step xs zs r.2]
      cases feedAll step xs r.2 with
      | ok r2 =>
        simp only [Out.ok_bind, Out.pure_def]
        cases feedAll step zs r2.2 <;> rfl
      | assertFail => rfl
      | throws => rfl
      | ub => rfl
    | assertFail => rfl
    | throws => rfl
    | ub => rfl

theorem innerProd_eq : ∀ (a b : List K), a.length ≤ b.length →
    innerProd a b = .ok (∑ i ∈ range a.length, sig a i * sig b i) := by
  intro a b h
  unfold innerProd
  rw [if_pos h]
  congr 1
  have : ∀ (l : List K) (c : K), l.foldl (fun acc p => acc + p) c = c + l.sum := by
    intro l
    induction l with
    | nil => simp
    | cons x xs ih => intro c; simp [ih, add_assoc]
  rw [this, zero_add]
  induction a generalizing b with
  | nil => simp
  | cons x xs ih =>
    cases b with
    | nil => simp at h
    | cons y ys =>
      simp only [List.zipWith_cons_cons, List.sum_cons, List.length_cons]
      rw [ih ys (by simpa using h), sum_range_succ']
      simp [sig, add_comm]

/-- a tap sum, newest sample first -/
theorem hist_sum (c xs : List K) :
    ∑ i ∈ range c.length, sig (hist c.length xs) i * sig c i =
      ∑ k ∈ range c.length, sig c (c.length - 1 - k) * sigI xs ((xs.length : ℤ) - 1 - k) := by
  rw [← sum_range_reflect]
  apply sum_congr rfl
  intro k hk
  have := mem_range.1 hk
  unfold hist
  rw [sig_reg, if_pos (by omega), mul_comm]
  congr 2
  omega

theorem innerProd_hist_left (c xs : List K) :
    innerProd (hist c.length xs) c =
      .ok (∑ k ∈ range c.length, sig c (c.length - 1 - k) * sigI xs ((xs.length : ℤ) - 1 - k)) := by
  rw [innerProd_eq _ _ (by simp), hist_length, hist_sum]

theorem innerProd_hist_right (c xs : List K) :
    innerProd c (hist c.length xs) =
      .ok (∑ k ∈ range c.length, sig c (c.length - 1 - k) * sigI xs ((xs.length : ℤ) - 1 - k)) := by
  rw [innerProd_eq _ _ (by simp), ← hist_sum]
  congr 1
  apply sum_congr rfl
  intro i _
  ring

/-- extending a response by one sample -/
theorem IsResponse.snoc {b a xs ys : List K} (h : IsResponse b a xs ys) (x y : K)
    (hn : ∑ k ∈ range a.length, sig a (a.length - 1 - k) * sigI (ys ++ [y]) ((xs.length : ℤ) - k) =
      ∑ k ∈ range b.length, sig b (b.length - 1 - k) * sigI (xs ++ [x]) ((xs.length : ℤ) - k)) :
    IsResponse b a (xs ++ [x]) (ys ++ [y]) := by
  refine ⟨by simp [h.1], fun n hn' => ?_⟩
  simp only [List.length_append, List.length_singleton] at hn'
  rcases Nat.lt_succ_iff_lt_or_eq.1 hn' with h1 | h1
  · have := h.2 n h1
    have hlen := h.1
    have e1 : ∀ k : ℕ, sigI (ys ++ [y]) ((n : ℤ) - k) = sigI ys ((n : ℤ) - k) :=
      fun k => sigI_append_lt _ _ (by omega)
    have e2 : ∀ k : ℕ, sigI (xs ++ [x]) ((n : ℤ) - k) = sigI xs ((n : ℤ) - k) :=
      fun k => sigI_append_lt _ _ (by omega)
    simp only [e1, e2]
    exact this
  · subst h1
    exact hn

/-- splitting the leading denominator coefficient off the recursive sum -/
theorem rec_sum_split (r : List K) (lead : K) (ys : List K) (y : K) :
    ∑ k ∈ range (r ++ [lead]).length, sig (r ++ [lead]) ((r ++ [lead]).length - 1 - k) *
        sigI (ys ++ [y]) ((ys.length : ℤ) - k) =
      lead * y + ∑ k ∈ range r.length, sig r (r.length - 1 - k) * sigI ys ((ys.length : ℤ) - 1 - k) := by
  simp only [List.length_append, List.length_singleton]
  rw [sum_range_succ', add_comm]
  congr 1
  · have : sig (r ++ [lead]) (r.length + 1 - 1 - 0) = lead := by simp [sig]
    rw [this]
    simp [sigI_append_last]
  · apply sum_congr rfl
    intro k hk
    have := mem_range.1 hk
    congr 1
    · unfold sig
      simp only [List.getD_eq_getElem?_getD]
      rw [List.getElem?_append_left (by omega)]
      congr 2
      omega
    · rw [sigI_append_lt _ _ (by push_cast; omega)]
      congr 1
      push_cast
      ring

/-- zero initial conditions and a nonzero leading coefficient determine the response -/
theorem IsResponse.unique {b a x y y' : List K} (h0 : sig a (a.length - 1) ≠ 0)
    (h : IsResponse b a x y) (h' : IsResponse b a x y') : y = y' := by
  have hal : 0 < a.length := by
    by_contra hc
    have : a = [] := List.length_eq_zero_iff.1 (by omega)
    subst this
    simp [sig] at h0
  have key : ∀ n, n < x.length → sigI y n = sigI y' n := by
    intro n
    induction n using Nat.strong_induction_on with
    | _ n ih =>
      intro hn
      have e := (h.2 n hn).trans (h'.2 n hn).symm
      obtain ⟨m, hm⟩ : ∃ m, a.length = m + 1 := ⟨a.length - 1, by omega⟩
      rw [hm, sum_range_succ', sum_range_succ'] at e
      have hs : ∑ k ∈ range m, sig a (m + 1 - 1 - (k + 1)) * sigI y ((n : ℤ) - (k + 1 : ℕ)) =
          ∑ k ∈ range m, sig a (m + 1 - 1 - (k + 1)) * sigI y' ((n : ℤ) - (k + 1 : ℕ)) := by
        apply sum_congr rfl
        intro k _
        congr 1
        by_cases c : k + 1 ≤ n
        · have e : (n : ℤ) - (k + 1 : ℕ) = ((n - (k + 1) : ℕ) : ℤ) := by omega
          rw [e]
          exact ih _ (by omega) (by omega)
        · rw [sigI_neg (by omega), sigI_neg (by omega)]
      rw [hs] at e
      have e2 := add_left_cancel e
      rw [hm] at h0
      simp only [Nat.add_sub_cancel, Nat.sub_zero, Nat.cast_zero, sub_zero] at e2 h0
      exact mul_left_cancel₀ h0 e2
  apply list_ext_sig (by rw [h.1, h'.1])
  intro i hi
  have := key i (by rw [h.1] at hi; exact hi)
  rwa [sigI_nat, sigI_nat] at this

theorem usub_eq {a b : ℕ} (h : b ≤ a) : usub a b = a - b := by rw [usub, if_pos h]

theorem den_split {den : List K} (h : den ≠ []) : ∃ r lead, den = r ++ [lead] :=
  ⟨den.dropLast, den.getLast h, (List.dropLast_append_getLast h).symm⟩

/-- invariant of direct form I: its states are the recent outputs and inputs -/
theorem dfi_feed (num r : List K) (lead : K) (hlead : lead ≠ 0) (ord : ℕ)
    (hord : (TransferFn.mk num (r ++ [lead])).order ≤ ord) (zs xs ys : List K)
    (h : IsResponse num (r ++ [lead]) xs ys) :
    ∃ ws, DirectFormI.feed ⟨num, r ++ [lead]⟩ zs ⟨hist ord ys, hist (ord + 1) xs⟩ =
        .ok (ws, ⟨hist ord (ys ++ ws), hist (ord + 1) (xs ++ zs)⟩) ∧
      IsResponse num (r ++ [lead]) (xs ++ zs) (ys ++ ws) := by
  have hnum : num.length ≤ ord + 1 := by
    unfold TransferFn.order polyOrder at hord
    simp only at hord
    split at hord <;> omega
  have hr : r.length ≤ ord := by
    unfold TransferFn.order polyOrder at hord
    simp at hord
    omega
  unfold DirectFormI.feed
  simp only [hist_length, DirectFormI.order]
  have hne : hist (ord + 1) xs ≠ [] := by
    intro h; have := congrArg List.length h; simp at this
  have hu : usub (r ++ [lead]).length 1 = r.length := by rw [usub_eq (by simp)]; simp
  rw [cassert_true ⟨hne, hord⟩, Out.ok_bind, hu, cassert_true (by simp), Out.ok_bind]
  have ht : (r ++ [lead]).take r.length = r := by simp
  rw [ht, usub_eq (by omega), cassert_true (by omega), Out.ok_bind, usub_eq hr, cassert_true (by omega),
    Out.ok_bind]
  have hrd : rd (r ++ [lead]) (((r ++ [lead]).length : ℤ) - 1) = .ok lead := by
    have e : (((r ++ [lead]).length : ℕ) : ℤ) - 1 = (r.length : ℕ) := by simp
    rw [e, rd_ofNat (by simp)]
    simp
  rw [hrd, Out.ok_bind]
  obtain ⟨ws, s', h1, h2, h3⟩ := feedAll_inv
    (step := DirectFormI.step num r (1 / lead) (ord + 1 - num.length) (ord - r.length))
    (fun xs ys s => s = ⟨hist ord ys, hist (ord + 1) xs⟩ ∧ IsResponse num (r ++ [lead]) xs ys)
    (by
      rintro xs ys s x ⟨rfl, hI⟩
      have hlen := hI.1
      unfold DirectFormI.step
      simp only
      rw [shiftIn_hist (by omega), Out.ok_bind, hist_drop _ _ hnum, innerProd_hist_left, Out.ok_bind,
        hist_drop _ _ hr, innerProd_hist_left, Out.ok_bind]
      set out := ((∑ k ∈ range num.length, sig num (num.length - 1 - k) * sigI (xs ++ [x])
              (((xs ++ [x]).length : ℤ) - 1 - k)) -
            ∑ k ∈ range r.length, sig r (r.length - 1 - k) * sigI ys ((ys.length : ℤ) - 1 - k)) * (1 / lead)
        with hout
      refine ⟨out, ⟨hist ord (ys ++ [out]), hist (ord + 1) (xs ++ [x])⟩, ?_, rfl, ?_⟩
      rotate_left
      · apply hI.snoc
        rw [← hlen, rec_sum_split r lead ys out]
        have : lead * out = (∑ k ∈ range num.length, sig num (num.length - 1 - k) * sigI (xs ++ [x])
              (((xs ++ [x]).length : ℤ) - 1 - k)) -
            ∑ k ∈ range r.length, sig r (r.length - 1 - k) * sigI ys ((ys.length : ℤ) - 1 - k) := by
          rw [hout]; field_simp
        rw [this, sub_add_cancel]
        apply sum_congr rfl
        intro k _
        congr 2
        simp [hlen]
      · by_cases c : ord = 0
        · subst c
          rw [if_neg (by simp)]
          simp only [Out.pure_def, Out.ok_bind]
          congr 3
        · rw [if_pos (by simp; omega), shiftIn_hist (by omega)]
          rfl)
    zs xs ys ⟨hist ord ys, hist (ord + 1) xs⟩ ⟨rfl, h⟩
  exact ⟨ws, by rw [h1, h2], h3⟩

theorem sigI_reg_response (b a : List K) : IsResponse b a ([] : List K) [] :=
  ⟨rfl, fun n h => absurd h (by simp)⟩

/-- a nonrecursive part after a recursive part -/
theorem response_compose (b a : List K) (c : K) (x w y : List K) (hy : y.length = x.length)
    (hw : w.length = x.length)
    (h1 : ∀ n : ℕ, n < x.length → ∑ k ∈ range a.length, sig a (a.length - 1 - k) * sigI w ((n : ℤ) - k) =
      sigI x n * c)
    (h2 : ∀ n : ℕ, n < x.length → sigI y n =
      ∑ k ∈ range b.length, sig b (b.length - 1 - k) * sigI w ((n : ℤ) - k)) :
    IsResponse (b.map (· * c)) a x y := by
  refine ⟨hy, fun n hn => ?_⟩
  have h1' : ∀ m : ℤ, m < x.length →
      ∑ k ∈ range a.length, sig a (a.length - 1 - k) * sigI w (m - k) = sigI x m * c := by
    intro m hm
    by_cases hc : 0 ≤ m
    · obtain ⟨m', rfl⟩ := Int.eq_ofNat_of_zero_le hc
      exact h1 m' (by omega)
    · rw [sigI_neg (by omega), zero_mul]
      apply sum_eq_zero
      intro k _
      rw [sigI_neg (by omega), mul_zero]
  have h2' : ∀ m : ℤ, m < x.length → sigI y m =
      ∑ k ∈ range b.length, sig b (b.length - 1 - k) * sigI w (m - k) := by
    intro m hm
    by_cases hc : 0 ≤ m
    · obtain ⟨m', rfl⟩ := Int.eq_ofNat_of_zero_le hc
      exact h2 m' (by omega)
    · rw [sigI_neg (by omega)]
      symm
      apply sum_eq_zero
      intro k _
      rw [sigI_neg (by omega), mul_zero]
  have hm : ∀ i, sig (b.map (· * c)) i = sig b i * c := by
    intro i
    unfold sig
    by_cases hi : i < b.length <;> simp [hi]
  calc ∑ k ∈ range a.length, sig a (a.length - 1 - k) * sigI y ((n : ℤ) - k)
      = ∑ k ∈ range a.length, ∑ j ∈ range b.length,
          sig a (a.length - 1 - k) * (sig b (b.length - 1 - j) * sigI w ((n : ℤ) - k - j)) := by
        apply sum_congr rfl
        intro k _
        rw [h2' _ (by omega), mul_sum]
    _ = ∑ j ∈ range b.length, ∑ k ∈ range a.length,
          sig b (b.length - 1 - j) * (sig a (a.length - 1 - k) * sigI w ((n : ℤ) - j - k)) := by
        rw [sum_comm]
        apply sum_congr rfl
        intro j _
        apply sum_congr rfl
        intro k _
        rw [show (n : ℤ) - k - j = (n : ℤ) - j - k by ring]
        ring
    _ = _ := by
        rw [List.length_map]
        apply sum_congr rfl
        intro j _
        rw [← mul_sum, h1' _ (by omega), hm]
        ring

theorem dfii_feed (num r : List K) (lead : K) (ord : ℕ)
    (hord : (TransferFn.mk num (r ++ [lead])).order ≤ ord) (zs : List K) :
    ∃ ws s', DirectFormII.feed ⟨num, r ++ [lead]⟩ zs ⟨hist (ord + 1) []⟩ = .ok (ws, s') ∧
      IsResponse (num.map (· * (1 / lead))) (r ++ [1]) zs ws := by
  have hnum : num.length ≤ ord + 1 := by
    unfold TransferFn.order polyOrder at hord
    simp only at hord
    split at hord <;> omega
  have hr : r.length ≤ ord + 1 := by
    unfold TransferFn.order polyOrder at hord
    simp at hord
    omega
  unfold DirectFormII.feed
  have hne : hist (ord + 1) ([] : List K) ≠ [] := by
    intro h; have := congrArg List.length h; simp at this
  have hu : usub (r ++ [lead]).length 1 = r.length := by rw [usub_eq (by simp)]; simp
  simp only [DirectFormII.order, hist_length]
  rw [cassert_true ⟨hne, by rw [if_pos hne]; simpa using hord⟩, Out.ok_bind, hu, cassert_true (by simp),
    Out.ok_bind]
  have ht : (r ++ [lead]).take r.length = r := by simp
  rw [ht, usub_eq (by omega), cassert_true (by omega), Out.ok_bind, usub_eq hr, cassert_true (by omega),
    Out.ok_bind]
  have hrd : rd (r ++ [lead]) (((r ++ [lead]).length : ℤ) - 1) = .ok lead := by
    have e : (((r ++ [lead]).length : ℕ) : ℤ) - 1 = (r.length : ℕ) := by simp
    rw [e, rd_ofNat (by simp)]
    simp
  rw [hrd, Out.ok_bind]
  obtain ⟨ws, s', h1, w, h2, h3, h4, h5, h6⟩ := feedAll_inv
    (step := DirectFormII.step num r (1 / lead) (ord + 1 - num.length) (ord + 1 - r.length))
    (fun xs ys s => ∃ w : List K, w.length = xs.length ∧ ys.length = xs.length ∧ s = ⟨hist (ord + 1) w⟩ ∧
      (∀ n : ℕ, n < xs.length → ∑ k ∈ range (r ++ [(1 : K)]).length,
        sig (r ++ [(1 : K)]) ((r ++ [(1 : K)]).length - 1 - k) * sigI w ((n : ℤ) - k) = sigI xs n * (1 / lead)) ∧
      (∀ n : ℕ, n < xs.length → sigI ys n =
        ∑ k ∈ range num.length, sig num (num.length - 1 - k) * sigI w ((n : ℤ) - k)))
    (by
      rintro xs ys s x ⟨w, hw, hy, rfl, ha, hb⟩
      unfold DirectFormII.step
      simp only
      rw [hist_drop _ _ hr, innerProd_hist_right, Out.ok_bind]
      set v := x * (1 / lead) - ∑ k ∈ range r.length, sig r (r.length - 1 - k) * sigI w ((w.length : ℤ) - 1 - k)
        with hv
      rw [shiftIn_hist (by omega), Out.ok_bind, hist_drop _ _ hnum, innerProd_hist_right, Out.ok_bind]
      refine ⟨_, _, rfl, w ++ [v], by simp [hw], by simp [hy], rfl, fun n hn => ?_, fun n hn => ?_⟩
      · simp only [List.length_append, List.length_singleton] at hn
        rcases Nat.lt_succ_iff_lt_or_eq.1 hn with hlt | rfl
        · have := ha n hlt
          rw [sigI_append_lt xs _ (by omega), ← this]
          apply sum_congr rfl
          intro k _
          rw [sigI_append_lt w _ (by omega)]
        · rw [sigI_append_last, ← hw, rec_sum_split r 1 w v, hv]
          ring
      · simp only [List.length_append, List.length_singleton] at hn
        rcases Nat.lt_succ_iff_lt_or_eq.1 hn with hlt | rfl
        · rw [sigI_append_lt ys _ (by omega), hb n hlt]
          apply sum_congr rfl
          intro k _
          rw [sigI_append_lt w _ (by omega)]
        · rw [← hy, sigI_append_last]
          apply sum_congr rfl
          intro k _
          congr 2
          simp [hw, hy])
    zs [] [] ⟨hist (ord + 1) []⟩ ⟨[], rfl, rfl, rfl, fun n h => absurd h (by simp), fun n h => absurd h (by simp)⟩
  simp only [List.nil_append] at h2 h3 h5 h6
  exact ⟨ws, s', h1, response_compose num (r ++ [1]) (1 / lead) zs w ws h3 h2 h5 h6⟩

/-! ### cascade -/

/-- the coefficients of a section as the specification sees them -/
def Biquad.coeffs (b : Biquad K) : SectionCoeffs K := ⟨[b.n0, b.n1, b.n2], [b.d0, b.d1]⟩

theorem cascade_of_chain : ∀ (sys : List (Biquad K)) (X : ℕ → List K),
    (∀ i (h : i < sys.length), IsResponse sys[i].coeffs.num (sys[i].coeffs.den ++ [1]) (X i) (X (i + 1))) →
    IsCascadeResponse (sys.map Biquad.coeffs) (X 0) (X sys.length)
  | [], X, _ => rfl
  | s :: ss, X, h => by
    refine ⟨X 1, h 0 (by simp), ?_⟩
    have := cascade_of_chain ss (fun i => X (i + 1)) (fun i hi => by
      have := h (i + 1) (by simpa using hi)
      simpa using this)
    simpa using this

theorem section_response (b : Biquad K) (X Y : List K) (v : K)
    (h : IsResponse b.coeffs.num (b.coeffs.den ++ [1]) X Y) :
    IsResponse b.coeffs.num (b.coeffs.den ++ [1]) (X ++ [v]) (Y ++ [sectionOut b X v Y]) := by
  have hlen := h.1
  apply h.snoc
  rw [← hlen, rec_sum_split]
  simp only [Biquad.coeffs, List.length_cons, List.length_nil, sum_range_succ, range_zero, sum_empty]
  unfold sectionOut
  rw [sec3_snoc]
  unfold sec3
  simp only [sig, List.getD_cons_zero, List.getD_cons_succ]
  have e0 : sigI (X ++ [v]) ((Y.length : ℤ) - (0 : ℕ)) = v := by
    rw [hlen]; simpa using sigI_append_last X v
  rw [e0, hlen]
  have e1 : sigI (X ++ [v]) ((X.length : ℤ) - (1 : ℕ)) = sigI X ((X.length : ℤ) - 1) :=
    sigI_append_lt _ _ (by omega)
  have e2 : sigI (X ++ [v]) ((X.length : ℤ) - (2 : ℕ)) = sigI X ((X.length : ℤ) - 2) :=
    sigI_append_lt _ _ (by omega)
  norm_num [e1, e2]
  have e1' : sigI (X ++ [v]) ((X.length : ℤ) - 1) = sigI X ((X.length : ℤ) - 1) :=
    sigI_append_lt _ _ (by omega)
  have e2' : sigI (X ++ [v]) ((X.length : ℤ) - 2) = sigI X ((X.length : ℤ) - 2) :=
    sigI_append_lt _ _ (by omega)
  rw [e1', e2', show (X.length : ℤ) - 1 - 1 = X.length - 2 by ring]
  ring

theorem cascade_feed (sys : List (Biquad K)) (L : ℕ) (hL : sys.length + 1 ≤ L) (zs : List K) :
    ∃ ws s', CascadedForm.feed sys zs ⟨List.replicate L ⟨0, 0, 0⟩⟩ = .ok (ws, s') ∧
      IsCascadeResponse (sys.map Biquad.coeffs) zs ws := by
  obtain ⟨ws, s', h1, X, h2, h3, h4, h5⟩ := feedAll_inv (step := CascadedForm.feed1 sys)
    (fun xs ys s => ∃ X : ℕ → List K, X 0 = xs ∧
      s = ⟨(List.range L).map fun i => sec3 (X i)⟩ ∧
      (∀ i (h : i < sys.length), IsResponse sys[i].coeffs.num (sys[i].coeffs.den ++ [1]) (X i) (X (i + 1))) ∧
      (∀ i, sys.length ≤ i → X i = ys))
    (by
      rintro xs ys s x ⟨X, rfl, rfl, hr, hy⟩
      have hconst : ∀ i, sys.length ≤ i → chainVal sys X x i = chainVal sys X x sys.length := by
        intro i hi
        induction i with
        | zero => have : sys.length = 0 := by omega
                  rw [this]
        | succ i ih =>
          rcases Nat.lt_or_ge i sys.length with c | c
          · have : sys.length = i + 1 := by omega
            rw [this]
          · rw [← ih c]
            simp only [chainVal]
            rw [dif_neg (by omega)]
      refine ⟨_, _, cascade_feed1 sys L hL X x, fun i => X i ++ [chainVal sys X x i], rfl, rfl,
        fun i h => ?_, fun i hi => ?_⟩
      · have := section_response sys[i] (X i) (X (i + 1)) (chainVal sys X x i) (hr i h)
        simp only [chainVal]
        rw [dif_pos h]
        exact this
      · simp only
        rw [hy i hi, hconst i hi, hconst L (by omega)])
    zs [] [] ⟨List.replicate L ⟨0, 0, 0⟩⟩
    ⟨fun _ => [], rfl, by
        congr 1
        apply List.ext_getElem (by simp)
        intro i _ _
        simp [sec3, sigI, sig],
      fun i h => sigI_reg_response _ _, fun i _ => rfl⟩
  refine ⟨ws, s', h1, ?_⟩
  have := cascade_of_chain sys X h4
  rw [h2, h5 _ (le_refl _)] at this
  simpa using this

end
end Verif
