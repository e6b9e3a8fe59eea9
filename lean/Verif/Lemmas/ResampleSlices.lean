import Verif.Lemmas.Resample2
import Mathlib.Data.Real.Basic

/-!
# Which samples and which taps interpolation multiplies, for any type of samples

`Lemmas/Resample.lean` evaluates the dot products in a commutative ring.  Floating point types are not rings, so here the dot product
stays as it is, applied to the slices of the input and of the filter phase.
-/

set_option linter.unusedSectionVars false
set_option linter.unusedSimpArgs false

namespace Verif
open Finset

/-- first input sample, first tap and number of products for output `n` -/
def sliceIn (F P n : ℕ) : ℕ := n / P + 1 - phaseSize F P (n % P)
def sliceTap (F P n : ℕ) : ℕ := sliceIn F P n + phaseSize F P (n % P) - 1 - n / P
def sliceLen (N F P n : ℕ) : ℕ := min N (n / P + 1) - sliceIn F P n

section
variable {R : Type} [Zero R]

def inSlice (x : List R) (F P n : ℕ) : List R := (x.drop (sliceIn F P n)).take (sliceLen x.length F P n)
def tapSlice (x : List R) (v : PolyphaseView R) (F P n : ℕ) : List R :=
  ((v.phaseList (n % P)).drop (sliceTap F P n)).take (sliceLen x.length F P n)

theorem represents_sig {v : PolyphaseView R} {P : ℕ} {h : List R} (hr : v.Represents P h) {p i : ℕ} (hp : p < P)
    (hi : i < phaseSize h.length P p) :
    Verif.sig (v.phaseList p) i = Verif.sig h (p + (phaseSize h.length P p - 1 - i) * P) := by
  have h1 := hr.2.2 p hp
  rw [phase_ok v (by have := hr.1; unfold PolyphaseView.numPhases at this; omega)] at h1
  injection h1 with h1
  have hrev : ∀ (l : List R) (i : ℕ), i < l.length → Verif.sig l.reverse i = Verif.sig l (l.length - 1 - i) := by
    intro l i h
    rw [sig_of_lt (by simpa using h), sig_of_lt (by omega)]
    simp [List.getElem_reverse]
  rw [h1, tapsOfPhase_eq _ _ _ hp, hrev _ _ (by rwa [reg_length]), sig_reg, reg_length, if_pos (by omega)]

variable {v : PolyphaseView R} {P : ℕ} {x h : List R}

theorem phaseLen (hr : v.Represents P h) {p : ℕ} (hp : p < P) : (v.phaseList p).length = phaseSize h.length P p := by
  have hv : v.filterCount = P := hr.1
  have hl : v.buffer.length = h.length := hr.2.1
  rw [phaseList_length v (by omega), hl, hv]

theorem slices_fit (hr : v.Represents P h) (hP : 0 < P) (n : ℕ) (hle : sliceIn h.length P n ≤ min x.length (n / P + 1)) :
    sliceIn h.length P n + sliceLen x.length h.length P n ≤ x.length ∧
      sliceTap h.length P n + sliceLen x.length h.length P n ≤ (v.phaseList (n % P)).length := by
  rw [phaseLen hr (Nat.mod_lt n hP)]
  unfold sliceTap sliceLen sliceIn at *
  omega

theorem slice_lengths (hr : v.Represents P h) (hP : 0 < P) (n : ℕ) (hle : sliceIn h.length P n ≤ min x.length (n / P + 1)) :
    (inSlice x h.length P n).length = sliceLen x.length h.length P n ∧
      (tapSlice x v h.length P n).length = sliceLen x.length h.length P n := by
  have := slices_fit (x := x) hr hP n hle
  unfold inSlice tapSlice
  simp only [List.length_take, List.length_drop]
  omega

theorem sliceLen_le (N F P n : ℕ) (hP : 0 < P) : sliceLen N F P n ≤ (F + P - 1) / P := by
  have h1 : sliceLen N F P n ≤ phaseSize F P (n % P) := by unfold sliceLen sliceIn; omega
  refine h1.trans ?_
  unfold phaseSize
  rw [Nat.le_div_iff_mul_le hP]
  have e := Nat.div_add_mod F P
  have hr := Nat.mod_lt F hP
  rw [mul_comm] at e
  split
  · rw [add_mul]; omega
  · rw [add_zero]; omega

private theorem sum_zip (a b : List ℝ) (n : ℕ) (ha : a.length = n) (hb : b.length = n) :
    (List.zipWith (fun x y => x * y) a b).sum = ∑ t ∈ range n, Verif.sig a t * Verif.sig b t := by
  have h1 : a = reg n (Verif.sig a) := by
    apply list_ext_sig
    · rw [reg_length, ha]
    · intro i hi; rw [sig_reg, if_pos (by omega)]
  have h2 : b = reg n (Verif.sig b) := by
    apply list_ext_sig
    · rw [reg_length, hb]
    · intro i hi; rw [sig_reg, if_pos (by omega)]
  conv_lhs => rw [h1, h2]
  rw [zipWith_reg, sum_reg]

private theorem sig_map0 (f : R → ℝ) (f0 : f 0 = 0) (l : List R) (k : ℕ) : Verif.sig (l.map f) k = f (Verif.sig l k) := by
  unfold Verif.sig
  simp only [List.getD_eq_getElem?_getD, List.getElem?_map]
  cases l[k]? <;> simp [f0]

/-- The products over the slices are the products of the zero-stuffed signal with the filter. -/
theorem slices_sum (hr : v.Represents P h) (hP : 0 < P) (n : ℕ) (hle : sliceIn h.length P n ≤ min x.length (n / P + 1))
    (f : R → ℝ) (f0 : f 0 = 0) :
    (List.zipWith (fun a b => f a * f b) (inSlice x h.length P n) (tapSlice x v h.length P n)).sum =
      upsampleAt (x.map f) (h.map f) P n := by
  have hp := Nat.mod_lt n hP
  have hlen := slice_lengths (x := x) hr hP n hle
  have hfit := slices_fit (x := x) hr hP n hle
  rw [phaseLen hr hp] at hfit
  have e : List.zipWith (fun a b => f a * f b) (inSlice x h.length P n) (tapSlice x v h.length P n) =
      List.zipWith (fun a b => a * b) ((inSlice x h.length P n).map f) ((tapSlice x v h.length P n).map f) := by
    rw [List.zipWith_map]
  rw [e, sum_zip _ _ (sliceLen x.length h.length P n) (by simp [hlen.1]) (by simp [hlen.2]),
    upsampleAt_window (x.map f) (h.map f) P n (sliceIn h.length P n) (sliceLen x.length h.length P n) hP
      (by simp only [List.length_map]; unfold sliceIn; omega)
      (by simp only [List.length_map]; unfold sliceLen sliceIn at *; omega)]
  apply sum_congr rfl
  intro t ht
  rw [mem_range] at ht
  rw [sig_map0 f f0, sig_map0 f f0, sig_map0 f f0, sig_map0 f f0]
  unfold inSlice tapSlice
  rw [sig_sub, sig_sub, if_pos ht, if_pos ht, represents_sig hr hp (by omega)]
  congr 3
  congr 1
  congr 1
  unfold sliceTap sliceIn at *
  omega

end

section
variable {R : Type} [Add R] [Mul R] [Zero R]
variable {v : PolyphaseView R} {P : ℕ} {x h : List R}

/-- One output sample of `Interpolate`. -/
theorem interpolateStep_slices (dot : List R → List R → Out R) (S : ℕ) (hr : v.Represents P h) (hP : 0 < P)
    (hS : ∀ p, phaseSize h.length P p ≤ S) (off k : ℕ) (out : List R) (n : ℕ) (hn : n = off + k) :
    (Touches x.length h.length P n → sliceIn h.length P n ≤ min x.length (n / P + 1) ∧ interpolateStep dot x v S off k out =
      (do let r ← dot (inSlice x h.length P n) (tapSlice x v h.length P n); wr out (k : Int) r)) ∧
    (¬ Touches x.length h.length P n → interpolateStep dot x v S off k out = .ok out) := by
  have hv : v.filterCount = P := hr.1
  have hl : v.buffer.length = h.length := hr.2.1
  have hp := Nat.mod_lt n hP
  obtain ⟨st, key⟩ : ∃ st, st = interpolateStep dot x v S off k out := ⟨_, rfl⟩
  rw [← key]
  obtain ⟨q, hq⟩ : ∃ q, q = n / P := ⟨_, rfl⟩
  obtain ⟨p, hpe⟩ : ∃ p, p = n % P := ⟨_, rfl⟩
  obtain ⟨s, hs⟩ : ∃ s, s = phaseSize h.length P p := ⟨_, rfl⟩
  have hsS : s ≤ S := hs ▸ hS p
  have hlen : (v.phaseList p).length = s := by rw [phaseLen hr (hpe ▸ hp), hs]
  have ht := touches_iff x.length h.length P n hP
  rw [← hq, ← hpe, ← hs] at ht
  obtain ⟨J, hJ⟩ : ∃ J, J = Interval.intersection (⟨0, (x.length : ℤ)⟩ : Interval ℤ)
    (Interval.intersection ⟨(q : ℤ) - S + 1, (q : ℤ) + 1⟩ ⟨(q : ℤ) + 1 - s, (q : ℤ) + 1⟩) := ⟨_, rfl⟩
  have hin : Interval.intersection (⟨(q : ℤ) - S + 1, (q : ℤ) + 1⟩ : Interval ℤ) ⟨(q : ℤ) + 1 - s, (q : ℤ) + 1⟩ =
      if 0 < s then ⟨(q : ℤ) + 1 - s, (q : ℤ) + 1⟩ else ⟨0, 0⟩ := by
    unfold Interval.intersection
    simp only [min_self]
    rw [max_eq_right (by omega)]
    by_cases h0 : 0 < s
    · rw [if_pos (by omega), if_pos h0]
    · rw [if_neg (by omega), if_neg h0]
  unfold interpolateStep at key
  simp only [PolyphaseView.numPhases, PolyphaseView.sizeOriginal, hv, hl] at key
  rw [← hn] at key
  rw [show (1 : ℤ) - h.length + n + h.length - 1 = n by ring] at key
  rw [show (n : ℤ).tdiv P = q by rw [hq]; exact Int.ofNat_tdiv n P |>.symm] at key
  rw [show (n : ℤ).tmod P = p by rw [hpe]; exact Int.ofNat_tmod n P |>.symm] at key
  rw [toSize_nat, phase_ok v (by omega), Out.ok_bind, hlen] at key
  rw [show (q : ℤ) - S + 1 + S = (q : ℤ) + 1 by ring] at key
  rw [← hJ] at key
  constructor
  · intro htt
    have hlt := ht.1 htt
    have hs0 : 0 < s := by omega
    refine ⟨by unfold sliceIn; rw [← hq, ← hpe, ← hs]; omega, ?_⟩
    have hJ' : J = ⟨((q + 1 - s : ℕ) : ℤ), ((min x.length (q + 1) : ℕ) : ℤ)⟩ := by
      rw [hJ, hin, if_pos hs0]
      unfold Interval.intersection
      simp only
      rw [show max (0 : ℤ) ((q : ℤ) + 1 - s) = ((q + 1 - s : ℕ) : ℤ) by omega,
        show min (x.length : ℤ) ((q : ℤ) + 1) = ((min x.length (q + 1) : ℕ) : ℤ) by omega, if_pos (by exact_mod_cast hlt)]
    have hJs : 0 < J.size := by rw [hJ']; unfold Interval.size; simp only; omega
    rw [key, if_pos hJs, hJ']
    simp only [Interval.unshift]
    rw [toSize_nat,
      toSize_nonneg (k := ((min x.length (q + 1) : ℕ) : ℤ) - ((q + 1 - s : ℕ) : ℤ)) (by omega),
      toSize_nonneg (k := ((q + 1 - s : ℕ) : ℤ) - ((q : ℤ) - S + 1) - S + s) (by omega),
      toSize_nonneg (k := ((min x.length (q + 1) : ℕ) : ℤ) - ((q : ℤ) - S + 1) - (((q + 1 - s : ℕ) : ℤ) - ((q : ℤ) - S + 1)))
        (by omega)]
    obtain ⟨a, ha⟩ : ∃ a, a = q + 1 - s := ⟨_, rfl⟩
    obtain ⟨c, hc⟩ : ∃ c, c = min x.length (q + 1) - a := ⟨_, rfl⟩
    rw [← ha] at hlt ⊢
    rw [show (((min x.length (q + 1) : ℕ) : ℤ) - (a : ℤ)).toNat = c by omega,
      show (((min x.length (q + 1) : ℕ) : ℤ) - ((q : ℤ) - S + 1) - ((a : ℤ) - ((q : ℤ) - S + 1))).toNat = c by omega,
      show ((a : ℤ) - ((q : ℤ) - S + 1) - S + s).toNat = a + s - 1 - q by omega]
    rw [subsignal_ok (by omega), Out.ok_bind, subsignal_ok (by rw [hlen]; omega), Out.ok_bind]
    unfold inSlice tapSlice sliceLen sliceTap sliceIn
    rw [← hq, ← hpe, ← hs, ← ha, ← hc]
  · intro htt
    have hge : min x.length (q + 1) ≤ q + 1 - s := by
      by_contra hc
      exact htt (ht.2 (by omega))
    have hJ' : J = ⟨0, 0⟩ := by
      rw [hJ, hin]
      unfold Interval.intersection
      simp only
      by_cases hs0 : 0 < s
      · rw [if_pos hs0]
        simp only
        rw [if_neg (by omega)]
      · rw [if_neg hs0]
        simp only
        rw [if_neg (by omega)]
    have hJs : ¬ 0 < J.size := by rw [hJ']; simp [Interval.size]
    rw [key, if_neg hJs]
    rfl

/-- The whole loop of `Interpolate`, for any dot product whose results have the property `D n` at output `n`. -/
theorem interpolate_slices (dot : List R → List R → Out R) (D : ℕ → R → Prop) (out : List R) (hr : v.Represents P h) (hP : 0 < P)
    (off : ℕ) (hmax : off + out.length ≤ interpolLengthFull x.length h.length P)
    (hdot : ∀ n, off ≤ n → n < off + out.length → Touches x.length h.length P n →
      sliceIn h.length P n ≤ min x.length (n / P + 1) →
      ∃ r, dot (inSlice x h.length P n) (tapSlice x v h.length P n) = .ok r ∧ D n r) :
    ∃ y sp, interpolate dot out x v off = .ok (y, sp) ∧ findInterpolSuspensionPoint (off + out.length) h.length P = .ok sp ∧
      y.length = out.length ∧
      ∀ k < out.length, (Touches x.length h.length P (off + k) → D (off + k) (sig y k)) ∧
        (¬ Touches x.length h.length P (off + k) → sig y k = sig out k) := by
  have hv : v.filterCount = P := hr.1
  have hl : v.buffer.length = h.length := hr.2.1
  have hSS : ∃ S, v.sizePerPhase = .ok S ∧ ∀ p, phaseSize v.buffer.length v.filterCount p ≤ S := by
    unfold PolyphaseView.sizePerPhase
    rw [if_neg (by omega)]
    refine ⟨_, rfl, fun p => ?_⟩
    unfold phaseSize
    have h0 : 0 < v.filterCount := by omega
    rw [Nat.le_div_iff_mul_le h0]
    have e := Nat.div_add_mod v.buffer.length v.filterCount
    have hr := Nat.mod_lt v.buffer.length h0
    rw [mul_comm] at e
    split
    · rw [add_mul]; omega
    · rw [add_zero]; omega
  obtain ⟨S, hS1, hS2⟩ := hSS
  rw [hl, hv] at hS2
  unfold interpolate
  rw [hS1, Out.ok_bind]
  simp only [PolyphaseView.numPhases, PolyphaseView.sizeOriginal, hv, hl]
  rw [cassert_true hmax, Out.ok_bind]
  obtain ⟨y, e1, e2, e3⟩ := forN_inv (body := interpolateStep dot x v S off)
    (fun q y => y.length = out.length ∧ ∀ k < out.length, (k < q → Touches x.length h.length P (off + k) →
        D (off + k) (sig y k)) ∧
        (k < q → ¬ Touches x.length h.length P (off + k) → sig y k = sig out k) ∧ (q ≤ k → sig y k = sig out k))
    out.length out ⟨rfl, fun k hk => ⟨fun h => by omega, fun h => by omega, fun _ => rfl⟩⟩ (by
    rintro k y hk ⟨h1, h2⟩
    have step := interpolateStep_slices (x := x) dot S hr hP hS2 off k y (off + k) rfl
    by_cases ht : Touches x.length h.length P (off + k)
    · obtain ⟨hle, e⟩ := step.1 ht
      obtain ⟨r, r1, r2⟩ := hdot (off + k) (by omega) (by omega) ht hle
      refine ⟨y.set k r, ?_, by simpa using h1, ?_⟩
      · rw [e, r1, Out.ok_bind, wr_eq (by omega) (by omega)]
        rfl
      · intro i hi
        rw [sig_set _ _ _ _ (by omega)]
        by_cases e : i = k
        · subst e
          rw [if_pos rfl]
          exact ⟨fun _ _ => r2, fun _ hn => absurd ht hn, fun hh => by omega⟩
        · rw [if_neg e]
          exact ⟨fun a b => (h2 i hi).1 (by omega) b, fun a b => (h2 i hi).2.1 (by omega) b, fun a => (h2 i hi).2.2 (by omega)⟩
    · refine ⟨y, step.2 ht, h1, fun i hi => ?_⟩
      by_cases e : i = k
      · subst e
        exact ⟨fun _ hh => absurd hh ht, fun _ _ => (h2 i hi).2.2 (le_refl _), fun hh => by omega⟩
      · exact ⟨fun a b => (h2 i hi).1 (by omega) b, fun a b => (h2 i hi).2.1 (by omega) b, fun a => (h2 i hi).2.2 (by omega)⟩)
  rw [e1, Out.ok_bind]
  have hsp : ∃ sp, findInterpolSuspensionPoint (off + out.length) h.length P = .ok sp := by
    unfold findInterpolSuspensionPoint
    simp only
    split
    · exact ⟨_, rfl⟩
    · rw [if_neg hP.ne']; exact ⟨_, rfl⟩
  obtain ⟨sp, hsp⟩ := hsp
  rw [hsp]
  exact ⟨y, sp, rfl, rfl, e2, fun k hk => ⟨(e3 k hk).1 hk, (e3 k hk).2.1 hk⟩⟩

/-- The dot product at position `n` of the oversampled grid. -/
theorem dotProductSample_slices (dot : List R → List R → Out R) (hr : v.Represents P h) (hP : 0 < P) (i p : ℕ) (hp : p < P)
    (hmax : i * P + p < x.length * P + h.length) :
    sliceIn h.length P (i * P + p) ≤ min x.length ((i * P + p) / P + 1) ∧ dotProductSample dot x (v.phaseList p) i =
      dot (inSlice x h.length P (i * P + p)) (tapSlice x v h.length P (i * P + p)) := by
  have hq : (i * P + p) / P = i := by
    rw [add_comm, Nat.add_mul_div_right _ _ hP, Nat.div_eq_of_lt hp, zero_add]
  have hpm : (i * P + p) % P = p := by
    rw [add_comm, Nat.add_mul_mod_self_right, Nat.mod_eq_of_lt hp]
  obtain ⟨s, hs⟩ : ∃ s, s = phaseSize h.length P p := ⟨_, rfl⟩
  have hlen : (v.phaseList p).length = s := by rw [phaseLen hr hp, hs]
  have hN : i + 1 ≤ x.length + s := by
    by_cases hi : i < x.length
    · omega
    · obtain ⟨j, hj⟩ : ∃ j, i = x.length + j := ⟨i - x.length, by omega⟩
      have : p + j * P < h.length := by
        rw [hj, add_mul] at hmax
        omega
      have := (phaseSize_lt h.length P p j hp).2 this
      omega
  have hle : i + 1 - s ≤ min x.length (i + 1) := by omega
  refine ⟨by unfold sliceIn; rw [hq, hpm, ← hs]; omega, ?_⟩
  unfold dotProductSample
  simp only [hlen]
  obtain ⟨a, ha⟩ : ∃ a, a = i + 1 - s := ⟨_, rfl⟩
  obtain ⟨c, hc⟩ : ∃ c, c = min x.length (i + 1) - a := ⟨_, rfl⟩
  rw [← ha] at hle
  rw [show max (0 : ℤ) ((i : ℤ) - s + 1) = (a : ℤ) by omega,
    show min (x.length : ℤ) ((i : ℤ) + 1) = ((min x.length (i + 1) : ℕ) : ℤ) by omega]
  rw [show ((min x.length (i + 1) : ℕ) : ℤ) - a = (c : ℤ) by omega, cassert_true (by omega), Out.ok_bind]
  rw [show (a : ℤ) - ((i : ℤ) - s + 1) = ((a + s - (i + 1) : ℕ) : ℤ) by omega, toSize_nat, toSize_nat, toSize_nat]
  rw [subsignal_ok (by omega), Out.ok_bind, subsignal_ok (by rw [hlen]; omega), Out.ok_bind]
  unfold inSlice tapSlice sliceLen sliceTap sliceIn
  rw [hq, hpm, ← hs, ← ha, ← hc, show a + s - 1 - i = a + s - (i + 1) by omega]

end

end Verif
