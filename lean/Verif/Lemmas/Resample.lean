import Verif.Model.Resample
import Verif.Lemmas.Polyphase

set_option linter.unusedSectionVars false
set_option linter.unusedSimpArgs false

namespace Verif
open Finset

section
variable {R : Type} [CommRing R]

theorem zeroStuffed_length (x : List R) (P : ℕ) : (zeroStuffed x P).length = x.length * P := by simp [zeroStuffed]

theorem sig_zeroStuffed (x : List R) (P i : ℕ) (hP : 0 < P) :
    sig (zeroStuffed x P) i = if i % P = 0 then sig x (i / P) else 0 := by
  have e : zeroStuffed x P = reg (x.length * P) (fun i => if i % P = 0 then sig x (i / P) else 0) := rfl
  rw [e, sig_reg]
  by_cases h : i < x.length * P
  · rw [if_pos h]
  · rw [if_neg h]
    split
    · symm
      apply sig_of_ge
      rw [Nat.le_div_iff_mul_le hP]; omega
    · rfl

theorem decimate_spec (out input : List R) (r : ℕ) (hr : 0 < r) (hl : out.length = (input.length + r - 1) / r) :
    ∃ y, decimate out input r = .ok y ∧ y.length = out.length ∧ ∀ k < out.length, sig y k = sig input (k * r) := by
  unfold decimate
  rw [if_neg hr.ne', cassert_true hl, Out.ok_bind]
  obtain ⟨y, e1, e2, e3⟩ := forN_inv (body := fun k (out : List R) => do
      let x ← rd input ((k * r : Nat) : Int)
      wr out (k : Int) x)
    (fun q y => y.length = out.length ∧ ∀ k < q, sig y k = sig input (k * r)) out.length out ⟨rfl, fun k hk => by omega⟩ (by
    rintro k y hk ⟨h1, h2⟩
    have hk' : k * r < input.length := by
      rw [hl, Nat.lt_div_iff_mul_lt hr] at hk
      omega
    refine ⟨y.set k (sig input (k * r)), ?_, by simpa using h1, ?_⟩
    · rw [rd_sig (by omega) (by exact_mod_cast hk'), Out.ok_bind, wr_eq (by omega) (by omega), sigI_nat]
      rfl
    · intro i hi
      rw [sig_set _ _ _ _ (by omega)]
      by_cases e : i = k
      · rw [if_pos e, e]
      · rw [if_neg e, h2 i (by omega)])
  exact ⟨y, e1, e2, e3⟩

theorem expand_spec (out input : List R) (r : ℕ) (hr : 0 < r) (hl : out.length = input.length * r) :
    expand out input r = .ok (zeroStuffed input r) := by
  unfold expand
  rw [cassert_true hl, Out.ok_bind]
  obtain ⟨s, e1, e2, e3, e4⟩ := forN_inv (body := fun k (s : List R × Nat) => do
    let x ← rd input (k : Int)
    let out ← wr s.1 (s.2 : Int) x
    forN (r - 1) (fun _ (s : List R × Nat) => do
      let out ← wr s.1 (s.2 : Int) 0
      pure (out, s.2 + 1)) (out, s.2 + 1))
    (fun q s => s.1.length = out.length ∧ s.2 = q * r ∧ ∀ i < q * r, sig s.1 i = if i % r = 0 then sig input (i / r) else 0)
    input.length (out, 0) ⟨rfl, by simp, fun i hi => by omega⟩ (by
    rintro k ⟨b, pos⟩ hk ⟨h1, h2, h3⟩
    simp only at h1 h2 h3
    subst h2
    have hkr : (k + 1) * r ≤ input.length * r := Nat.mul_le_mul_right _ hk
    have hkr' : (k + 1) * r = k * r + r := by ring
    simp only
    rw [rd_sig (by omega) (by exact_mod_cast hk), Out.ok_bind, wr_eq (by omega) (by omega), Out.ok_bind, sigI_nat]
    have := forN_inv (body := fun _ (s : List R × Nat) => do
        let out ← wr s.1 (s.2 : Int) 0
        pure (out, s.2 + 1))
      (fun q s => s.1.length = out.length ∧ s.2 = k * r + 1 + q ∧
        ∀ i < k * r + 1 + q, sig s.1 i = if i % r = 0 then sig input (i / r) else 0)
      (r - 1) (b.set ((k * r : ℕ) : ℤ).toNat (sig input k), k * r + 1) ⟨by simpa using h1, rfl, ?_⟩ ?_
    · obtain ⟨s', f1, f2, f3, f4⟩ := this
      exact ⟨s', f1, f2, by omega, fun i hi => f4 i (by omega)⟩
    · intro i hi
      simp only [Int.toNat_natCast]
      rw [sig_set _ _ _ _ (by omega)]
      by_cases e : i = k * r
      · rw [if_pos e, e, if_pos (Nat.mul_mod_left _ _), Nat.mul_div_cancel _ hr]
      · rw [if_neg e, h3 i (by omega)]
    · rintro j ⟨b', pos⟩ hj ⟨g1, g2, g3⟩
      simp only at g1 g2 g3
      subst g2
      refine ⟨(b'.set (k * r + 1 + j) 0, k * r + 1 + j + 1), ?_, by simpa using g1, by simp only; omega, ?_⟩
      · simp only
        rw [wr_eq (by omega) (by omega), Out.ok_bind]
        rfl
      · intro i hi
        simp only
        rw [sig_set _ _ _ _ (by omega)]
        by_cases e : i = k * r + 1 + j
        · rw [if_pos e, if_neg]
          rw [e, show k * r + 1 + j = (1 + j) + k * r by ring, Nat.add_mul_mod_self_right, Nat.mod_eq_of_lt (by omega)]
          omega
        · rw [if_neg e, g3 i (by omega)])
  rw [e1, Out.ok_bind, Out.pure_def]
  congr 1
  apply list_ext_sig
  · rw [e2, zeroStuffed_length, hl]
  · intro i hi
    rw [e4 i (by omega), sig_zeroStuffed _ _ _ hr]

/-- The zero-stuffed signal filtered by `h`. -/
theorem upsampleAt_eq_conv (x h : List R) (P n : ℕ) (hP : 0 < P) :
    upsampleAt x h P n = convAt (zeroStuffed x P) h n := by
  unfold upsampleAt convAt
  have e1 : ∑ i ∈ range (n + 1), sig (zeroStuffed x P) i * sig h (n - i) =
      ∑ i ∈ (range (n + 1)).filter (fun i => i % P = 0), sig x (i / P) * sig h (n - i) := by
    rw [sum_filter]
    apply sum_congr rfl
    intro i _
    rw [sig_zeroStuffed _ _ _ hP]
    split <;> simp
  have e2 : ∑ i ∈ range x.length, sig x i * sigI h ((n : ℤ) - i * P) =
      ∑ i ∈ (range x.length).filter (fun i => i * P ≤ n), sig x i * sig h (n - i * P) := by
    rw [sum_filter]
    apply sum_congr rfl
    intro i _
    split
    · rename_i hi
      rw [show (n : ℤ) - i * P = ((n - i * P : ℕ) : ℤ) by push_cast [hi]; ring, sigI_nat]
    · rename_i hi
      rw [sigI_neg (by
        have : (n : ℤ) < i * P := by exact_mod_cast (by omega)
        omega), mul_zero]
  rw [e1, e2]
  have e3 : ∑ i ∈ (range (n + 1)).filter (fun i => i % P = 0), sig x (i / P) * sig h (n - i) =
      ∑ i ∈ (range (n / P + 1)), sig x i * sig h (n - i * P) := by
    symm
    apply sum_bij (fun i _ => i * P)
    · intro i hi
      simp only [mem_range, mem_filter, Nat.mul_mod_left, and_true] at hi ⊢
      have := Nat.mul_le_mul_right P (show i ≤ n / P by omega)
      have := Nat.div_mul_le_self n P
      omega
    · intro i _ j _ hij
      exact Nat.eq_of_mul_eq_mul_right hP hij
    · intro i hi
      simp only [mem_range, mem_filter] at hi
      refine ⟨i / P, ?_, ?_⟩
      · simp only [mem_range]
        have := Nat.div_le_div_right (c := P) (show i ≤ n by omega)
        omega
      · exact Nat.div_mul_cancel (Nat.dvd_of_mod_eq_zero hi.2)
    · intro i _
      rw [Nat.mul_div_cancel _ hP]
  rw [e3]
  have hmem : ∀ i, i * P ≤ n ↔ i < n / P + 1 := by
    intro i
    rw [Nat.lt_succ_iff, Nat.le_div_iff_mul_le hP]
  -- both sums extend the common part by zeros
  rw [show (range x.length).filter (fun i => i * P ≤ n) = (range (n / P + 1)).filter (fun i => i < x.length) by
    ext i; simp only [mem_filter, mem_range, hmem]; tauto, sum_filter]
  apply sum_congr rfl
  intro i _
  split
  · rfl
  · rw [sig_of_ge (by omega), zero_mul]

/-- What `DotProduct` is assumed to do (proved of the model of `DotProduct` in C10). -/
def IsDot (dot : List R → List R → Out R) : Prop :=
  ∀ a b : List R, a.length = b.length → dot a b = .ok (List.zipWith (· * ·) a b).sum

theorem sum_reg (n : ℕ) (f : ℕ → R) : (reg n f).sum = ∑ i ∈ range n, f i := by
  unfold reg
  induction n with
  | zero => simp
  | succ n ih => rw [List.range_succ, List.map_append, List.sum_append, ih, sum_range_succ]; simp

theorem sub_reg (l : List R) (o c : ℕ) (h : o + c ≤ l.length) : (l.drop o).take c = reg c (fun i => sig l (o + i)) := by
  apply list_ext_sig
  · rw [reg_length]; simp; omega
  · intro i hi
    rw [sig_sub, sig_reg]

theorem dot_sub {dot : List R → List R → Out R} (hd : IsDot dot) (x y : List R) (a b c : ℕ) (ha : a + c ≤ x.length)
    (hb : b + c ≤ y.length) :
    (do let u ← subsignal x a c
        let v ← subsignal y b c
        dot u v) = .ok (∑ t ∈ range c, sig x (a + t) * sig y (b + t)) := by
  rw [subsignal_ok ha, Out.ok_bind, subsignal_ok hb, Out.ok_bind, sub_reg _ _ _ ha, sub_reg _ _ _ hb,
    hd _ _ (by simp), zipWith_reg, sum_reg]

/-- The taps that meet the input: with `n = q P + p`, the sum over the window of inputs `q - s + 1 .. q`. -/
theorem upsampleAt_window (x h : List R) (P n a c : ℕ) (hP : 0 < P)
    (ha : a = 0 ∨ a + phaseSize h.length P (n % P) = n / P + 1)
    (hc : (a ≤ x.length ∨ c = 0) ∧ (a + c = n / P + 1 ∨ (x.length ≤ a + c ∧ a + c ≤ n / P + 1)
      ∨ (c = 0 ∧ phaseSize h.length P (n % P) = 0))) :
    upsampleAt x h P n = ∑ t ∈ range c, sig x (a + t) * sig h (n % P + (n / P - (a + t)) * P) := by
  have en : n % P + n / P * P = n := by rw [mul_comm]; exact Nat.mod_add_div n P
  have hp := Nat.mod_lt n hP
  have term : ∀ i, i ≤ n / P → sigI h ((n : ℤ) - i * P) = sig h (n % P + (n / P - i) * P) := by
    intro i hi
    have : n - i * P = n % P + (n / P - i) * P := by
      rw [Nat.sub_mul]
      have := Nat.mul_le_mul_right P hi
      omega
    have hle : i * P ≤ n := by
      have := Nat.mul_le_mul_right P hi
      omega
    rw [← this, show (n : ℤ) - i * P = ((n - i * P : ℕ) : ℤ) by push_cast [hle]; ring, sigI_nat]
  have gt : ∀ i, n / P < i → sigI h ((n : ℤ) - i * P) = 0 := by
    intro i hi
    apply sigI_neg
    have := Nat.mul_le_mul_right P (show n / P + 1 ≤ i from hi)
    rw [add_mul] at this
    have h2 : n < i * P := by omega
    have : (n : ℤ) < i * P := by exact_mod_cast h2
    omega
  have lo : ∀ i, i + phaseSize h.length P (n % P) ≤ n / P → sig h (n % P + (n / P - i) * P) = 0 := by
    intro i hi
    apply sig_of_ge
    by_contra hcon
    have := (phaseSize_lt h.length P (n % P) (n / P - i) hp).2 (by omega)
    omega
  unfold upsampleAt
  -- sum over all inputs = sum over a .. a + c
  have e : ∀ i, (i < a ∨ a + c ≤ i) → i < x.length → sig x i * sigI h ((n : ℤ) - i * P) = 0 := by
    intro i hi hx
    by_cases h1 : n / P < i
    · rw [gt i h1, mul_zero]
    · rw [term i (by omega)]
      rcases hi with hi | hi
      · rw [lo i (by omega), mul_zero]
      · rcases hc.2 with h2 | h2 | h2
        · omega
        · omega
        · rw [lo i (by omega), mul_zero]
  have e' : ∀ i, a ≤ i → i < a + c → sig x i * sigI h ((n : ℤ) - i * P) = sig x i * sig h (n % P + (n / P - i) * P) := by
    intro i h1 h2
    rw [term i (by omega)]
  rw [show ∑ t ∈ range c, sig x (a + t) * sig h (n % P + (n / P - (a + t)) * P) =
      ∑ i ∈ Ico a (a + c), sig x i * sigI h ((n : ℤ) - i * P) by
    rw [sum_Ico_eq_sum_range, Nat.add_sub_cancel_left]
    apply sum_congr rfl
    intro t ht
    rw [e' _ (by omega) (by simp at ht; omega)]]
  rw [sum_subset (show range x.length ⊆ range (max x.length (a + c)) by
      intro i; simp only [mem_range]; omega) (fun i _ hi => by
        rw [sig_of_ge (by simpa using hi), zero_mul]) ] 
  symm
  apply sum_subset
  · intro i
    simp only [mem_Ico, mem_range]
    omega
  · intro i h1 h2
    simp only [mem_Ico, mem_range, not_and_or, not_le, not_lt] at h1 h2
    by_cases hx : i < x.length
    · exact e i (by omega) hx
    · rw [sig_of_ge (by omega), zero_mul]


theorem toSize_nonneg {k : ℤ} (h : 0 ≤ k) : toSize k = k.toNat := if_pos h
theorem toSize_nat (k : ℕ) : toSize (k : ℤ) = k := by rw [toSize_nonneg (by omega)]; rfl

theorem sizePerPhase_ok (v : PolyphaseView R) (h : 0 < v.filterCount) :
    ∃ S, v.sizePerPhase = .ok S ∧ ∀ p, phaseSize v.buffer.length v.filterCount p ≤ S := by
  unfold PolyphaseView.sizePerPhase
  rw [if_neg h.ne']
  refine ⟨_, rfl, fun p => ?_⟩
  unfold phaseSize
  rw [Nat.le_div_iff_mul_le h]
  have e := Nat.div_add_mod v.buffer.length v.filterCount
  have hr := Nat.mod_lt v.buffer.length h
  rw [mul_comm] at e
  split
  · rw [add_mul]; omega
  · rw [add_zero]; omega

/-- Some input sample meets some tap for output `n`. -/
def Touches (N F P n : ℕ) : Prop := ∃ i < N, i * P ≤ n ∧ n < i * P + F

theorem touches_iff (N F P n : ℕ) (hP : 0 < P) :
    Touches N F P n ↔ n / P + 1 - phaseSize F P (n % P) < min N (n / P + 1) := by
  have en : n % P + n / P * P = n := by rw [mul_comm]; exact Nat.mod_add_div n P
  have hp := Nat.mod_lt n hP
  have key : ∀ i ≤ n / P, n < i * P + F ↔ n / P - i < phaseSize F P (n % P) := by
    intro i hi
    rw [phaseSize_lt _ _ _ _ hp, Nat.sub_mul]
    have := Nat.mul_le_mul_right P hi
    omega
  constructor
  · rintro ⟨i, h1, h2, h3⟩
    have hi : i ≤ n / P := (Nat.le_div_iff_mul_le hP).2 h2
    have := (key i hi).1 h3
    omega
  · intro h
    have hi : n / P + 1 - phaseSize F P (n % P) ≤ n / P := by omega
    refine ⟨n / P + 1 - phaseSize F P (n % P), by omega, (Nat.le_div_iff_mul_le hP).1 hi, ?_⟩
    rw [key _ hi]
    omega

theorem upsampleAt_untouched (x h : List R) (P n : ℕ) (ht : ¬ Touches x.length h.length P n) : upsampleAt x h P n = 0 := by
  unfold upsampleAt
  apply sum_eq_zero
  intro i hi
  rw [mem_range] at hi
  by_cases h1 : i * P ≤ n
  · have h2 : i * P + h.length ≤ n := by
      by_contra hc
      exact ht ⟨i, hi, h1, by omega⟩
    have h3 : (i : ℤ) * P + h.length ≤ n := by exact_mod_cast h2
    rw [sigI_ge (by omega), mul_zero]
  · have h3 : (n : ℤ) < (i : ℤ) * P := by exact_mod_cast (not_le.1 h1)
    rw [sigI_neg (by omega), mul_zero]

theorem interpolateStep_spec {dot : List R → List R → Out R} (hd : IsDot dot) (x h : List R) (v : PolyphaseView R) (P S : ℕ)
    (hr : v.Represents P h) (hP : 0 < P) (hS : ∀ p, phaseSize h.length P p ≤ S) (off k : ℕ) (out : List R)
    (hk : k < out.length) (n : ℕ) (hn : n = off + k) [Decidable (Touches x.length h.length P n)] :
    interpolateStep dot x v S off k out = .ok (if Touches x.length h.length P n
      then out.set k (upsampleAt x h P n) else out) := by
  have hv : v.filterCount = P := hr.1
  have hl : v.buffer.length = h.length := hr.2.1
  have hp := Nat.mod_lt n hP
  obtain ⟨q, hq⟩ : ∃ q, q = n / P := ⟨_, rfl⟩
  obtain ⟨p, hpe⟩ : ∃ p, p = n % P := ⟨_, rfl⟩
  obtain ⟨s, hs⟩ : ∃ s, s = phaseSize h.length P p := ⟨_, rfl⟩
  have hsS : s ≤ S := hs ▸ hS p
  have hlen : (v.phaseList p).length = s := by rw [phaseList_length v (by omega), hl, hv, hs]
  unfold interpolateStep
  simp only [PolyphaseView.numPhases, PolyphaseView.sizeOriginal, hv, hl]
  rw [← hn]
  rw [show (1 : ℤ) - h.length + n + h.length - 1 = n by ring]
  rw [show (n : ℤ).tdiv P = q by rw [hq]; exact Int.ofNat_tdiv n P |>.symm]
  rw [show (n : ℤ).tmod P = p by rw [hpe]; exact Int.ofNat_tmod n P |>.symm]
  rw [toSize_nat, phase_ok v (by omega), Out.ok_bind, hlen]
  rw [show (q : ℤ) - S + 1 + S = (q : ℤ) + 1 by ring]
  have ht := touches_iff x.length h.length P n hP
  rw [← hq, ← hpe, ← hs] at ht
  -- the product interval
  obtain ⟨J, hJ⟩ : ∃ J, J = Interval.intersection (⟨0, (x.length : ℤ)⟩ : Interval ℤ)
    (Interval.intersection ⟨(q : ℤ) - S + 1, (q : ℤ) + 1⟩ ⟨(q : ℤ) + 1 - s, (q : ℤ) + 1⟩) := ⟨_, rfl⟩
  have hin : Interval.intersection (⟨(q : ℤ) - S + 1, (q : ℤ) + 1⟩ : Interval ℤ) ⟨(q : ℤ) + 1 - s, (q : ℤ) + 1⟩ =
      if 0 < s then ⟨(q : ℤ) + 1 - s, (q : ℤ) + 1⟩ else ⟨0, 0⟩ := by
    unfold Interval.intersection
    simp only [min_self]
    rw [max_eq_right (by omega)]
    by_cases h0 : 0 < s
    · rw [if_pos (by omega), if_pos h0]
    · rw [if_neg (by omega), if_neg h0]
  rw [← hJ]
  by_cases htt : Touches x.length h.length P n
  · have hlt := ht.1 htt
    have hs0 : 0 < s := by omega
    have hJ' : J = ⟨((q + 1 - s : ℕ) : ℤ), ((min x.length (q + 1) : ℕ) : ℤ)⟩ := by
      rw [hJ, hin, if_pos hs0]
      unfold Interval.intersection
      simp only
      rw [show max (0 : ℤ) ((q : ℤ) + 1 - s) = ((q + 1 - s : ℕ) : ℤ) by omega,
        show min (x.length : ℤ) ((q : ℤ) + 1) = ((min x.length (q + 1) : ℕ) : ℤ) by omega, if_pos (by exact_mod_cast hlt)]
    have hJs : 0 < J.size := by rw [hJ']; unfold Interval.size; simp only; omega
    rw [if_pos hJs, hJ']
    simp only [Interval.unshift]
    simp only [htt, if_true]
    rw [toSize_nat,
      toSize_nonneg (k := ((min x.length (q + 1) : ℕ) : ℤ) - ((q + 1 - s : ℕ) : ℤ)) (by omega),
      toSize_nonneg (k := ((q + 1 - s : ℕ) : ℤ) - ((q : ℤ) - S + 1) - S + s) (by omega),
      toSize_nonneg (k := ((min x.length (q + 1) : ℕ) : ℤ) - ((q : ℤ) - S + 1) - (((q + 1 - s : ℕ) : ℤ) - ((q : ℤ) - S + 1)))
        (by omega)]
    obtain ⟨a, ha⟩ : ∃ a, a = q + 1 - s := ⟨_, rfl⟩
    obtain ⟨c, hc⟩ : ∃ c, c = min x.length (q + 1) - a := ⟨_, rfl⟩
    rw [← ha] at hlt ⊢
    rw [show (((min x.length (q + 1) : ℕ) : ℤ) - (a : ℤ)).toNat = c by omega,
      show (((min x.length (q + 1) : ℕ) : ℤ) - ((q : ℤ) - S + 1) - ((a : ℤ) - ((q : ℤ) - S + 1))).toNat = c by omega,
      show ((a : ℤ) - ((q : ℤ) - S + 1) - S + s).toNat = a + s - 1 - q by omega]
    have hdot := dot_sub hd x (v.phaseList p) a (a + s - 1 - q) c (by omega) (by rw [hlen]; omega)
    rw [Out.bind_eq_ok] at hdot
    obtain ⟨u1, g1, hdot⟩ := hdot
    rw [Out.bind_eq_ok] at hdot
    obtain ⟨u2, g2, hdot⟩ := hdot
    rw [g1, Out.ok_bind, g2, Out.ok_bind, hdot, Out.ok_bind, wr_eq (by omega) (by omega)]
    congr 2
    rw [upsampleAt_window x h P n a c hP (by rw [← hq, ← hpe, ← hs]; omega) (by rw [← hq, ← hpe, ← hs]; omega)]
    apply sum_congr rfl
    intro t ht'
    rw [mem_range] at ht'
    rw [Represents.sig hr (by omega) (by rw [← hs]; omega), ← hs, ← hq, ← hpe]
    congr 3
    congr 1
    omega
  · have hge : min x.length (q + 1) ≤ q + 1 - s := by
      by_contra hc
      exact htt (ht.2 (by omega))
    have hJ' : J = ⟨0, 0⟩ := by
      rw [hJ, hin]
      unfold Interval.intersection
      simp only
      by_cases hs0 : 0 < s
      · rw [if_pos hs0]
        simp only
        rw [if_neg (by omega)]
      · rw [if_neg hs0]
        simp only
        rw [if_neg (by omega)]
    have hJs : ¬ 0 < J.size := by rw [hJ']; simp [Interval.size]
    rw [if_neg hJs]
    simp only [htt, if_false]
    rfl

theorem interpolate_spec {dot : List R → List R → Out R} (hd : IsDot dot) (out x h : List R) (v : PolyphaseView R) (P : ℕ)
    (hr : v.Represents P h) (hP : 0 < P) (off : ℕ) (hmax : off + out.length ≤ interpolLengthFull x.length h.length P) :
    ∃ y sp, interpolate dot out x v off = .ok (y, sp) ∧ findInterpolSuspensionPoint (off + out.length) h.length P = .ok sp ∧
      y.length = out.length ∧
      ∀ k < out.length, (Touches x.length h.length P (off + k) → sig y k = upsampleAt x h P (off + k)) ∧
        (¬ Touches x.length h.length P (off + k) → sig y k = sig out k) := by
  classical
  have hv : v.filterCount = P := hr.1
  have hl : v.buffer.length = h.length := hr.2.1
  obtain ⟨S, hS1, hS2⟩ := sizePerPhase_ok v (by omega)
  rw [hl, hv] at hS2
  unfold interpolate
  rw [hS1, Out.ok_bind]
  simp only [PolyphaseView.numPhases, PolyphaseView.sizeOriginal, hv, hl]
  rw [cassert_true hmax, Out.ok_bind]
  obtain ⟨y, e1, e2, e3⟩ := forN_inv (body := interpolateStep dot x v S off)
    (fun q y => y.length = out.length ∧ ∀ k < out.length, (k < q → Touches x.length h.length P (off + k) →
        sig y k = upsampleAt x h P (off + k)) ∧
        (k < q → ¬ Touches x.length h.length P (off + k) → sig y k = sig out k) ∧ (q ≤ k → sig y k = sig out k))
    out.length out ⟨rfl, fun k hk => ⟨fun h => by omega, fun h => by omega, fun _ => rfl⟩⟩ (by
    rintro k y hk ⟨h1, h2⟩
    refine ⟨_, interpolateStep_spec hd x h v P S hr hP hS2 off k y (by omega) _ rfl, ?_, ?_⟩
    · split
      · simpa using h1
      · exact h1
    · intro i hi
      by_cases ht : Touches x.length h.length P (off + k)
      · rw [if_pos ht, sig_set _ _ _ _ (by omega)]
        by_cases e : i = k
        · subst e
          rw [if_pos rfl]
          exact ⟨fun _ _ => rfl, fun _ hn => absurd ht hn, fun hh => by omega⟩
        · rw [if_neg e]
          exact ⟨fun a b => (h2 i hi).1 (by omega) b, fun a b => (h2 i hi).2.1 (by omega) b, fun a => (h2 i hi).2.2 (by omega)⟩
      · rw [if_neg ht]
        by_cases e : i = k
        · subst e
          exact ⟨fun _ hh => absurd hh ht, fun _ _ => (h2 i hi).2.2 (le_refl _), fun hh => by omega⟩
        · exact ⟨fun a b => (h2 i hi).1 (by omega) b, fun a b => (h2 i hi).2.1 (by omega) b, fun a => (h2 i hi).2.2 (by omega)⟩)
  rw [e1, Out.ok_bind]
  have hsp : ∃ sp, findInterpolSuspensionPoint (off + out.length) h.length P = .ok sp := by
    unfold findInterpolSuspensionPoint
    simp only
    split
    · exact ⟨_, rfl⟩
    · rw [if_neg hP.ne']; exact ⟨_, rfl⟩
  obtain ⟨sp, hsp⟩ := hsp
  rw [hsp]
  exact ⟨y, sp, rfl, rfl, e2, fun k hk => ⟨(e3 k hk).1 hk, (e3 k hk).2.1 hk⟩⟩

end
end Verif
