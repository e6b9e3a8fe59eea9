import Verif.Lemmas.PocketRadixB
import Verif.Lemmas.PocketPlan

/-! # The plan for real data: factors and tables -/

set_option linter.unusedSimpArgs false
set_option linter.unusedSectionVars false
set_option linter.unusedVariables false

namespace Verif.Pocket
open Complex

/-! ### factors -/

/-- `while (len % d == 0) { add(d); len /= d; }` with the factors in order -/
theorem divide_list {n d : ℕ} (hd : 2 ≤ d) {fs : List ℕ} {m : ℕ} (hm : 0 < m) (hle : m ≤ n) :
    ∃ k r, whileN (n + 1) (fun s : List ℕ × ℕ => decide (s.2 % d = 0))
        (fun s => .ok (s.1 ++ [d], s.2 / d)) (fs, m) = .ok (fs ++ List.replicate k d, r) ∧
      0 < r ∧ d ^ k * r = m ∧ ¬ d ∣ r := by
  obtain ⟨⟨gs, r⟩, e, ⟨h1, k, h2, h3⟩, hc⟩ := whileN_measure
    (cond := fun s : List ℕ × ℕ => decide (s.2 % d = 0)) (body := fun s => .ok (s.1 ++ [d], s.2 / d))
    (fun s => 0 < s.2 ∧ ∃ k, s.1 = fs ++ List.replicate k d ∧ d ^ k * s.2 = m) (fun s => s.2) (by
      rintro ⟨gs, r⟩ ⟨h1, k, h2, h3⟩ hc
      simp only [decide_eq_true_eq] at hc h1 h2 h3
      have hdr : d ∣ r := Nat.dvd_of_mod_eq_zero hc
      have hle := Nat.le_of_dvd h1 hdr
      refine ⟨_, rfl, ⟨Nat.div_pos hle (by omega), k + 1, ?_, ?_⟩, Nat.div_lt_self h1 (by omega)⟩
      · simp only []
        rw [h2, List.append_assoc, List.replicate_succ']
      · simp only []
        rw [pow_succ, mul_assoc, Nat.mul_div_cancel' hdr, h3]) (n + 1) (fs, m) (by simp only []; omega)
        ⟨hm, 0, by simp, by simp⟩
  simp only [] at h2
  subst h2
  refine ⟨k, r, e, h1, h3, ?_⟩
  intro h
  simp only [decide_eq_false_iff_not] at hc
  exact hc (Nat.mod_eq_zero_of_dvd h)

/-- 2173-2181: trial division appends odd primes -/
theorem trial_list {n : ℕ} {fs : List ℕ} {m : ℕ} (hm : 0 < m) (hle : m ≤ n) (hodd : ¬ 2 ∣ m) :
    ∃ B r d, whileN (n + 1) (fun s : (List ℕ × ℕ) × ℕ => decide (s.2 * s.2 ≤ s.1.2))
        (fun s => do
          let t ← whileN (n + 1) (fun t : List ℕ × ℕ => decide (t.2 % s.2 = 0))
            (fun t => .ok (t.1 ++ [s.2], t.2 / s.2)) s.1
          pure (t, s.2 + 2)) ((fs, m), 3) = .ok ((fs ++ B, r), d) ∧
      0 < r ∧ B.prod * r = m ∧ (∀ f ∈ B, f.Prime ∧ f % 2 = 1) ∧ (1 < r → r.Prime) ∧ ¬ 2 ∣ r := by
  obtain ⟨⟨⟨gs, r⟩, d⟩, e, ⟨h1, h2, ⟨B, h3, h3', h4⟩, h5, h6, h7, h8⟩, hc⟩ := whileN_measure
    (cond := fun s : (List ℕ × ℕ) × ℕ => decide (s.2 * s.2 ≤ s.1.2))
    (body := fun s => do
          let t ← whileN (n + 1) (fun t : List ℕ × ℕ => decide (t.2 % s.2 = 0))
            (fun t => .ok (t.1 ++ [s.2], t.2 / s.2)) s.1
          pure (t, s.2 + 2))
    (fun s => 0 < s.1.2 ∧ s.1.2 ≤ n ∧ (∃ B : List ℕ, s.1.1 = fs ++ B ∧ B.prod * s.1.2 = m ∧ ∀ f ∈ B, f.Prime ∧ f % 2 = 1) ∧ 3 ≤ s.2 ∧
      s.2 % 2 = 1 ∧ ¬ 2 ∣ s.1.2 ∧ ∀ p, p.Prime → p ∣ s.1.2 → s.2 ≤ p) (fun s => n + 1 - s.2) (by
      rintro ⟨⟨gs, r⟩, d⟩ ⟨h1, h2, ⟨B, h3, h3', h4⟩, h5, h6, h7, h8⟩ hc
      simp only [decide_eq_true_eq] at hc h1 h2 h3 h3' h4 h5 h6 h7 h8
      obtain ⟨k, r', e, a1, a2, a3⟩ := divide_list (d := d) (fs := gs) (by omega) h1 h2
      have hrd : r' ∣ r := ⟨d ^ k, by rw [← a2, mul_comm]⟩
      have hle' := Nat.le_of_dvd h1 hrd
      refine ⟨((gs ++ List.replicate k d, r'), d + 2), by simp only [e, Out.ok_bind]; rfl,
        ⟨a1, hle'.trans h2, ⟨B ++ List.replicate k d, by simp only []; rw [h3, List.append_assoc], ?_, ?_⟩,
          by simp only []; omega, by simp only []; omega, fun h => h7 (h.trans hrd), ?_⟩, ?_⟩
      · simp only [List.prod_append, List.prod_replicate]
        rw [mul_assoc, a2, h3']
      · intro f hf
        simp only [List.mem_append] at hf
        rcases hf with hf | hf
        · exact h4 f hf
        · obtain ⟨hk, rfl⟩ := List.mem_replicate.mp hf
          have hd : f ∣ r := ⟨f ^ (k - 1) * r', by rw [← a2, ← mul_assoc, ← pow_succ']; congr 2; omega⟩
          have hmf := h8 _ (Nat.minFac_prime (n := f) (by omega)) ((Nat.minFac_dvd f).trans hd)
          have := Nat.minFac_le (n := f) (by omega)
          have : f.minFac = f := by omega
          exact ⟨by rw [← this]; exact Nat.minFac_prime (by omega), h6⟩
      · intro p hp hpr
        have b1 := h8 p hp (hpr.trans hrd)
        have b2 : p ≠ d := by rintro rfl; exact a3 hpr
        have b3 : p % 2 = 1 := by
          rcases hp.eq_two_or_odd with e | e
          · subst e; exact absurd (hpr.trans hrd) h7
          · exact e
        simp only []
        omega
      · have : d * 1 ≤ d * d := Nat.mul_le_mul_left _ (by omega)
        simp only []
        omega) (n + 1) ((fs, m), 3) (by simp only []; omega)
    ⟨hm, hle, ⟨[], by simp, by simp, by simp⟩, le_rfl, by norm_num, hodd, by
      intro p hp hpm
      have := hp.two_le
      rcases Nat.lt_or_ge 2 p with h | h
      · exact h
      · have : p = 2 := by omega
        subst this; exact absurd hpm hodd⟩
  simp only [decide_eq_false_iff_not, not_le] at hc h1 h2 h3 h3' h4 h5 h6 h7 h8
  subst h3
  refine ⟨B, r, d, e, h1, h3', h4, ?_, h7⟩
  intro hr
  by_contra hnp
  have hmf := Nat.minFac_sq_le_self h1 hnp
  have := h8 _ (Nat.minFac_prime (n := r) (by omega)) (Nat.minFac_dvd r)
  have := Nat.mul_le_mul this this
  rw [pow_two] at hmf
  omega

/-- What the radices for real data can handle: after an odd factor only odd factors follow. -/
def RadList : List ℕ → Prop
  | [] => True
  | f :: fs => (f = 2 ∨ f = 4 ∨ (f.Prime ∧ f % 2 = 1)) ∧ (f % 2 = 1 → fs.prod % 2 = 1) ∧ RadList fs

theorem prod_odd : ∀ {B : List ℕ}, (∀ f ∈ B, f.Prime ∧ f % 2 = 1) → B.prod % 2 = 1
  | [], _ => by simp
  | f :: B, h => by
    have h1 := (h f (by simp)).2
    have h2 := prod_odd (B := B) (fun g hg => h g (by simp [hg]))
    rw [List.prod_cons, Nat.mul_mod, h1, h2]

theorem radList_odd : ∀ {B : List ℕ}, (∀ f ∈ B, f.Prime ∧ f % 2 = 1) → RadList B
  | [], _ => trivial
  | f :: B, h => ⟨Or.inr (Or.inr (h f (by simp))), fun _ => prod_odd (fun g hg => h g (by simp [hg])),
      radList_odd (fun g hg => h g (by simp [hg]))⟩

theorem radList_append : ∀ {A B : List ℕ}, (∀ f ∈ A, f = 2 ∨ f = 4) → (∀ f ∈ B, f.Prime ∧ f % 2 = 1) → RadList (A ++ B)
  | [], B, _, hB => radList_odd hB
  | f :: A, B, hA, hB => by
    have h1 := hA f (by simp)
    refine ⟨by tauto, fun h => ?_, radList_append (fun g hg => hA g (by simp [hg])) hB⟩
    rcases h1 with h1 | h1 <;> omega

theorem rfactorize_ok {n : ℕ} (hn : 0 < n) : ∃ fs, rfactorize n = .ok fs ∧ fs.prod = n ∧ RadList fs := by
  obtain ⟨k, r, e1, a1, a2, a3⟩ := divide_list (n := n) (d := 4) (by omega) (fs := []) (m := n) hn le_rfl
  have hrn : r ≤ n := Nat.le_of_dvd hn ⟨4 ^ k, by rw [← a2, mul_comm]⟩
  unfold rfactorize
  simp only [e1, Out.ok_bind, List.nil_append]
  obtain ⟨s, hs, c1, c2, c3, c4, c5⟩ : ∃ s : List ℕ × ℕ, s = (if r % 2 = 0 then
      (((List.replicate k 4 ++ [2]).set 0 ((List.replicate k 4 ++ [2]).getLastD 0)).set ((List.replicate k 4 ++ [2]).length - 1)
        ((List.replicate k 4 ++ [2]).headD 0), r / 2)
      else (List.replicate k 4, r)) ∧ 0 < s.2 ∧ s.2 ≤ n ∧ s.1.prod * s.2 = n ∧ (∀ f ∈ s.1, f = 2 ∨ f = 4) ∧ ¬ 2 ∣ s.2 := by
    refine ⟨_, rfl, ?_⟩
    split
    · rename_i h
      have h2 : 2 ∣ r := Nat.dvd_of_mod_eq_zero h
      obtain ⟨p1, p2⟩ := swap_ends (List.replicate k 4)
      refine ⟨Nat.div_pos (Nat.le_of_dvd a1 h2) (by omega), by simp only []; omega, ?_, ?_, ?_⟩
      · change List.prod _ * (r / 2) = n
        rw [p1, mul_assoc, Nat.mul_div_cancel' h2, List.prod_replicate, a2]
      · intro f hf
        rcases p2 f hf with h | h
        · exact Or.inr (List.mem_replicate.mp h).2
        · exact Or.inl h
      · intro h4
        simp only [] at h4
        apply a3
        omega
    · rename_i h
      refine ⟨a1, hrn, by simp only [List.prod_replicate]; exact a2, ?_, fun h' => h (Nat.mod_eq_zero_of_dvd h')⟩
      intro f hf
      exact Or.inr (List.mem_replicate.mp hf).2
  simp only [← hs]
  obtain ⟨B, r', d, et, d1, d2, d3, d4, d5⟩ := trial_list (fs := s.1) c1 c2 c5
  rw [show ((s.1, s.2), 3) = (s, 3) from rfl] at et
  simp only [Out.pure_def] at et
  simp only [Out.pure_def]
  rw [et, Out.ok_bind]
  refine ⟨_, rfl, ?_, ?_⟩
  · split
    · simp [mul_assoc, d2, c3]
    · rename_i h
      simp only [not_lt, gt_iff_lt] at h
      have : r' = 1 := by omega
      rw [List.prod_append, ← c3, ← d2, this, mul_one]
  · split
    · rename_i h
      rw [List.append_assoc]
      apply radList_append c4
      intro f hf
      simp only [List.mem_append, List.mem_singleton] at hf
      rcases hf with hf | rfl
      · exact d3 f hf
      · exact ⟨d4 h, by omega⟩
    · exact radList_append c4 d3

/-! ### tables -/

theorem ld_filled {α : Type} {L n : ℕ} {V : ℕ → α} {S : ℕ → Prop} {ch : List α} (h : Filled L V S ch) (hn : n < L)
    (hS : S n) : ld ch n = .ok (V n) := by
  unfold ld
  rw [h.2 n hn hS]

theorem rtwiddleTw_ok {N l1 ip ido : ℕ} {t : SinCos} (hN : N = l1 * ip * ido) (h0 : 0 < N)
    (ht : ∀ idx, idx ≤ N → t.get idx = .ok (w false N idx)) (junk : ℕ → ℝ) :
    ∃ tw, rtwiddleTw t l1 ip ido junk = .ok tw ∧ TwOk tw ip ido := by
  have hl1 : 0 < l1 := by
    rcases Nat.eq_zero_or_pos l1 with e | e
    · subst e; simp at hN; omega
    · exact e
  obtain ⟨V, hV⟩ : ∃ V : ℕ → ℝ, V = fun n => if n % (ido - 1) % 2 = 0 then
      (w false (ido * ip) ((n / (ido - 1) + 1) * (n % (ido - 1) / 2 + 1))).re
      else (w false (ido * ip) ((n / (ido - 1) + 1) * (n % (ido - 1) / 2 + 1))).im := ⟨_, rfl⟩
  have v1 : ∀ x c, 0 < c → 2 * c < ido → V (rwx ido x (2 * c - 2)) = (w false (ido * ip) ((x + 1) * c)).re := by
    intro x c hc0 hc
    rw [hV]
    unfold rwx
    simp only []
    rw [Nat.add_mul_mod_self_right, Nat.mod_eq_of_lt (show 2 * c - 2 < ido - 1 by omega), Nat.add_mul_div_right _ _ (by omega),
      Nat.div_eq_of_lt (show 2 * c - 2 < ido - 1 by omega), if_pos (by omega), Nat.zero_add, show (2 * c - 2) / 2 + 1 = c by omega]
  have v2 : ∀ x c, 0 < c → 2 * c < ido → V (rwx ido x (2 * c - 1)) = (w false (ido * ip) ((x + 1) * c)).im := by
    intro x c hc0 hc
    rw [hV]
    unfold rwx
    simp only []
    rw [Nat.add_mul_mod_self_right, Nat.mod_eq_of_lt (show 2 * c - 1 < ido - 1 by omega), Nat.add_mul_div_right _ _ (by omega),
      Nat.div_eq_of_lt (show 2 * c - 1 < ido - 1 by omega), if_neg (by omega), Nat.zero_add, show (2 * c - 1) / 2 + 1 = c by omega]
  have bd : ∀ x y, x < ip - 1 → y < ido - 1 → rwx ido x y < (ip - 1) * (ido - 1) := by
    intro x y hx hy
    unfold rwx
    have : (x + 1) * (ido - 1) ≤ (ip - 1) * (ido - 1) := Nat.mul_le_mul_right _ (by omega)
    have e : (x + 1) * (ido - 1) = x * (ido - 1) + (ido - 1) := by ring
    omega
  have f1 : Fills ((ip - 1) * (ido - 1)) V (fun tw => forN (ip - 1) (fun j0 tw => forN ((ido - 1) / 2) (fun i0 tw => do
      let j := j0 + 1
      let i := i0 + 1
      let v ← t.get (j * l1 * i)
      let tw ← st tw ((j - 1) * (ido - 1) + 2 * i - 2) v.re
      st tw ((j - 1) * (ido - 1) + 2 * i - 1) v.im) tw) tw)
      (fun n => ∃ j, j < ip - 1 ∧ ∃ i, i < (ido - 1) / 2 ∧
        (n = rwx ido j (2 * (i + 1) - 2) ∨ n = rwx ido j (2 * (i + 1) - 1))) := by
    apply fills_forN
    intro j hj
    apply fills_forN
    intro i hi
    have hb : (j + 1) * l1 * (i + 1) ≤ N := by
      rw [hN]
      calc (j + 1) * l1 * (i + 1) ≤ ip * l1 * ido := Nat.mul_le_mul (Nat.mul_le_mul_right _ (by omega)) (by omega)
        _ = l1 * ip * ido := by ring
    have hw : w false N ((j + 1) * l1 * (i + 1)) = w false (ido * ip) ((j + 1) * (i + 1)) := by
      rw [hN, show (j + 1) * l1 * (i + 1) = (j + 1) * (i + 1) * l1 by ring,
        show l1 * ip * ido = ido * ip * l1 by ring, w_scale false hl1]
    have e1 : (j + 1 - 1) * (ido - 1) + 2 * (i + 1) - 2 = rwx ido j (2 * (i + 1) - 2) := by
      unfold rwx; rw [show j + 1 - 1 = j by omega]; omega
    have e2 : (j + 1 - 1) * (ido - 1) + 2 * (i + 1) - 1 = rwx ido j (2 * (i + 1) - 1) := by
      unfold rwx; rw [show j + 1 - 1 = j by omega]; omega
    simp only [ht _ hb, hw, Out.ok_bind, e1, e2]
    apply fills_st_bind (bd _ _ hj (by omega)) (v1 j (i + 1) (by omega) (by omega)).symm
    exact fills_st (bd _ _ hj (by omega)) (v2 j (i + 1) (by omega) (by omega)).symm
  obtain ⟨tw, h1, h2⟩ := f1 (fun _ => False) (fresh junk ((ip - 1) * (ido - 1)))
    ⟨by simp [fresh], fun _ _ q => q.elim⟩
  refine ⟨tw, h1, ?_⟩
  intro x c hx hc0 hc
  have ex : c - 1 < (ido - 1) / 2 := by omega
  have ec : c - 1 + 1 = c := by omega
  rw [ld_filled h2 (bd _ _ (by omega) (by omega)) (Or.inr ⟨x, by omega, c - 1, ex, Or.inl (by rw [ec])⟩),
    ld_filled h2 (bd _ _ (by omega) (by omega)) (Or.inr ⟨x, by omega, c - 1, ex, Or.inr (by rw [ec])⟩),
    v1 x c hc0 hc, v2 x c hc0 hc]
  exact ⟨rfl, rfl⟩

theorem rtwiddleTws_ok {N ip M : ℕ} {t : SinCos} (hN : N = ip * M) (h0 : 0 < N) (hodd : ip % 2 = 1)
    (ht : ∀ idx, idx ≤ N → t.get idx = .ok (w false N idx)) (junk : ℕ → ℝ) :
    rtwiddleTws t N ip junk = .ok (tab (2 * ip) (csT ip)) := by
  have hip : 0 < ip := by omega
  have hM : 0 < M := by
    rcases Nat.eq_zero_or_pos M with e | e
    · subst e; simp at hN; omega
    · exact e
  have hd : N / ip = M := by rw [hN, Nat.mul_div_cancel_left _ hip]
  unfold rtwiddleTws
  have key : Fills (2 * ip) (csT ip) (fun tws => do
      let tws ← st tws 0 1
      let tws ← st tws 1 0
      forN (ip / 2) (fun i0 tws => do
        let i := 2 * (i0 + 1)
        let ic := 2 * ip - i
        let v ← t.get (i / 2 * (N / ip))
        let tws ← st tws i v.re
        let tws ← st tws (i + 1) v.im
        let tws ← st tws ic v.re
        st tws (ic + 1) (-v.im)) tws)
      (fun n => n = 0 ∨ n = 1 ∨ ∃ i, i < ip / 2 ∧ (n = 2 * (i + 1) ∨ n = 2 * (i + 1) + 1 ∨
        n = 2 * ip - 2 * (i + 1) ∨ n = 2 * ip - 2 * (i + 1) + 1)) := by
    apply fills_st_bind (by omega)
    · have := csT_even ip 0
      rw [Nat.mul_zero, cR_zero] at this
      exact this.symm
    apply fills_st_bind (by omega)
    · have := csT_odd ip 0
      rw [Nat.mul_zero, cI_zero] at this
      exact this.symm
    apply fills_forN
    intro i hi
    have hb : (i + 1) * M ≤ N := by rw [hN]; exact Nat.mul_le_mul_right _ (by omega)
    have hw : w false N ((i + 1) * M) = w false ip (i + 1) := by rw [hN, w_scale false hM]
    simp only [hd, show 2 * (i + 1) / 2 = i + 1 by omega, ht _ hb, hw, Out.ok_bind,
      show 2 * ip - 2 * (i + 1) = 2 * (ip - (i + 1)) by omega]
    apply fills_st_bind (by omega) (by rw [csT_even]; rfl)
    apply fills_st_bind (by omega) (by rw [csT_odd]; rfl)
    apply fills_st_bind (by omega)
    · rw [csT_even, cR_sub hip (by omega)]; rfl
    apply fills_st (by omega)
    rw [csT_odd, cI_sub hip (by omega)]; rfl
  refine fills_all key ?_ (by simp [fresh])
  intro n hn
  by_cases h1 : n = 0
  · exact Or.inl h1
  by_cases h2 : n = 1
  · exact Or.inr (Or.inl h2)
  right; right
  by_cases h3 : n / 2 ≤ ip / 2
  · exact ⟨n / 2 - 1, by omega, by omega⟩
  · exact ⟨ip - n / 2 - 1, by omega, by omega⟩

/-- One factor of a plan for real data. -/
structure GoodRF (N l1 : ℕ) (f : RFactor) : Prop where
  rad : f.fct = 2 ∨ f.fct = 4 ∨ (f.fct.Prime ∧ f.fct % 2 = 1)
  ex : ∃ ido, N = l1 * f.fct * ido ∧ 0 < ido ∧ (f.fct % 2 = 1 → ido % 2 = 1) ∧ TwOk f.tw f.fct ido
  tws : 5 < f.fct → f.tws = tab (2 * f.fct) (csT f.fct)

def GoodRs (N : ℕ) : ℕ → List RFactor → Prop
  | l1, [] => l1 = N
  | l1, f :: fs => GoodRF N l1 f ∧ GoodRs N (l1 * f.fct) fs

theorem rtwiddles_ok {N : ℕ} {t : SinCos} (hN : 0 < N) (ht : ∀ idx, idx ≤ N → t.get idx = .ok (w false N idx))
    (junk : ℕ → ℝ) :
    ∀ (fs : List ℕ) (l1 : ℕ), RadList fs → l1 * fs.prod = N →
      ∃ gs, rtwiddles t N junk l1 fs = .ok gs ∧ GoodRs N l1 gs
  | [], l1, _, h => ⟨[], rfl, by rw [GoodRs]; simpa using h⟩
  | ip :: fs, l1, ⟨r1, r2, r3⟩, h => by
    have hN' : N = l1 * ip * fs.prod := by rw [← h, List.prod_cons, mul_assoc]
    have hpos : 0 < l1 * ip := by
      rcases Nat.eq_zero_or_pos (l1 * ip) with e | e
      · rw [e] at hN'; simp at hN'; omega
      · exact e
    have hido : 0 < fs.prod := by
      rcases Nat.eq_zero_or_pos fs.prod with e | e
      · rw [e] at hN'; simp at hN'; omega
      · exact e
    have hdiv : N / (l1 * ip) = fs.prod := by rw [hN', Nat.mul_div_cancel_left _ hpos]
    obtain ⟨gs, e4, e5⟩ := rtwiddles_ok hN ht junk fs (l1 * ip) r3 hN'.symm
    have e1 : ∃ tw, (if fs.length > 0 then rtwiddleTw t l1 ip fs.prod junk else pure []) = .ok tw ∧ TwOk tw ip fs.prod := by
      split
      · exact rtwiddleTw_ok hN' hN ht junk
      · rename_i hl
        refine ⟨[], rfl, ?_⟩
        have : fs = [] := List.length_eq_zero_iff.mp (by omega)
        intro x c _ hc0 hc
        rw [this, List.prod_nil] at hc
        omega
    have e2 : ∃ tws, (if ip > 5 then rtwiddleTws t N ip junk else pure []) = .ok tws ∧
        (5 < ip → tws = tab (2 * ip) (csT ip)) := by
      split
      · rename_i h5
        exact ⟨_, rtwiddleTws_ok (M := l1 * fs.prod) (by rw [hN']; ring) hN (by omega) ht junk, fun _ => rfl⟩
      · exact ⟨[], rfl, by omega⟩
    obtain ⟨tw, e1, e1'⟩ := e1
    obtain ⟨tws, e2, e2'⟩ := e2
    refine ⟨⟨ip, tw, tws⟩ :: gs, ?_, ?_, e5⟩
    · simp only [rtwiddles, hdiv]
      rw [e1, Out.ok_bind, e2, Out.ok_bind, e4, Out.ok_bind]
      rfl
    · exact ⟨r1, ⟨fs.prod, hN', hido, r2, e1'⟩, e2'⟩

def GoodRPlan (N : ℕ) (p : RPlan) : Prop := p.length = N ∧ (N = 1 ∨ GoodRs N 1 p.fact)

theorem rfftp_ok {N : ℕ} (hN : 0 < N) (junk : ℕ → ℝ) : ∃ p, rfftp N junk = .ok p ∧ GoodRPlan N p := by
  unfold rfftp
  rw [if_neg (by omega)]
  by_cases h1 : N = 1
  · rw [if_pos h1]
    exact ⟨_, rfl, h1.symm, Or.inl h1⟩
  · rw [if_neg h1]
    obtain ⟨fs, e1, e2, e3⟩ := rfactorize_ok hN
    obtain ⟨t, e4, e5⟩ := sincos_ok hN
    obtain ⟨gs, e6, e7⟩ := rtwiddles_ok hN e5 junk fs 1 e3 (by rw [e2, one_mul])
    simp only [e1, e4, e6, Out.ok_bind]
    exact ⟨_, rfl, rfl, Or.inr e7⟩

end Verif.Pocket
