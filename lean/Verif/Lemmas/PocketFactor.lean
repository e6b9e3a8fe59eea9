import Verif.Model.PocketFFT
import Mathlib.Data.Nat.Prime.Basic
import Mathlib.Algebra.BigOperators.Group.List.Basic

/-! # The factorisation of the transform length -/

set_option linter.unusedSimpArgs false
set_option linter.unusedVariables false

namespace Verif.Pocket

/-- What the passes can handle. -/
def Radix (f : ℕ) : Prop := f = 4 ∨ f = 8 ∨ f.Prime

/-- `while (len % d == 0) { add(d); len /= d; }` -/
theorem divide_out {n d : ℕ} (hd : 2 ≤ d) (P : ℕ → Prop) {fs : List ℕ} {m : ℕ} (hm : 0 < m)
    (hle : m ≤ n) (hpr : fs.prod * m = n) (hP : ∀ f ∈ fs, P f) (hPd : d ∣ m → P d) :
    ∃ gs r, whileN (n + 1) (fun s : List ℕ × ℕ => decide (s.2 % d = 0))
        (fun s => .ok (s.1 ++ [d], s.2 / d)) (fs, m) = .ok (gs, r) ∧
      0 < r ∧ r ∣ m ∧ gs.prod * r = n ∧ (∀ f ∈ gs, P f) ∧ ¬ d ∣ r := by
  obtain ⟨⟨gs, r⟩, e, ⟨h1, h2, h3, h4⟩, hc⟩ := whileN_measure
    (cond := fun s : List ℕ × ℕ => decide (s.2 % d = 0)) (body := fun s => .ok (s.1 ++ [d], s.2 / d))
    (fun s => 0 < s.2 ∧ s.2 ∣ m ∧ s.1.prod * s.2 = n ∧ ∀ f ∈ s.1, P f) (fun s => s.2) (by
      rintro ⟨gs, r⟩ ⟨h1, h2, h3, h4⟩ hc
      simp only [decide_eq_true_eq] at hc h1 h2 h3 h4
      have hdr : d ∣ r := Nat.dvd_of_mod_eq_zero hc
      have hle := Nat.le_of_dvd h1 hdr
      refine ⟨_, rfl, ⟨Nat.div_pos hle (by omega), (Nat.div_dvd_of_dvd hdr).trans h2, ?_, ?_⟩,
        Nat.div_lt_self h1 (by omega)⟩
      · simp only [List.prod_append, List.prod_cons, List.prod_nil, mul_one]
        rw [mul_assoc, Nat.mul_div_cancel' hdr, h3]
      · intro f hf
        simp only [List.mem_append, List.mem_singleton] at hf
        rcases hf with hf | rfl
        · exact h4 f hf
        · exact hPd (hdr.trans h2)) (n + 1) (fs, m) (by simp only []; omega) ⟨hm, dvd_rfl, hpr, hP⟩
  refine ⟨gs, r, e, h1, h2, h3, h4, ?_⟩
  intro h
  simp only [decide_eq_false_iff_not] at hc
  exact hc (Nat.mod_eq_zero_of_dvd h)

/-- 1381-1389 (the odd part): trial division -/
theorem trial {n : ℕ} {fs : List ℕ} {m : ℕ} (hm : 0 < m) (hle : m ≤ n) (hpr : fs.prod * m = n)
    (hP : ∀ f ∈ fs, Radix f) (hodd : ¬ 2 ∣ m) :
    ∃ s : (List ℕ × ℕ) × ℕ, whileN (n + 1) (fun s : (List ℕ × ℕ) × ℕ => decide (s.2 * s.2 ≤ s.1.2))
        (fun s => do
          let t ← whileN (n + 1) (fun t : List ℕ × ℕ => decide (t.2 % s.2 = 0))
            (fun t => .ok (t.1 ++ [s.2], t.2 / s.2)) s.1
          pure (t, s.2 + 2)) ((fs, m), 3) = .ok s ∧
      0 < s.1.2 ∧ s.1.1.prod * s.1.2 = n ∧ (∀ f ∈ s.1.1, Radix f) ∧ (1 < s.1.2 → s.1.2.Prime) := by
  obtain ⟨⟨⟨gs, r⟩, d⟩, e, ⟨h1, h2, h3, h4, h5, h6, h7, h8⟩, hc⟩ := whileN_measure
    (cond := fun s : (List ℕ × ℕ) × ℕ => decide (s.2 * s.2 ≤ s.1.2))
    (body := fun s => do
          let t ← whileN (n + 1) (fun t : List ℕ × ℕ => decide (t.2 % s.2 = 0))
            (fun t => .ok (t.1 ++ [s.2], t.2 / s.2)) s.1
          pure (t, s.2 + 2))
    (fun s => 0 < s.1.2 ∧ s.1.2 ≤ n ∧ s.1.1.prod * s.1.2 = n ∧ (∀ f ∈ s.1.1, Radix f) ∧ 3 ≤ s.2 ∧
      s.2 % 2 = 1 ∧ ¬ 2 ∣ s.1.2 ∧ ∀ p, p.Prime → p ∣ s.1.2 → s.2 ≤ p) (fun s => n + 1 - s.2) (by
      rintro ⟨⟨gs, r⟩, d⟩ ⟨h1, h2, h3, h4, h5, h6, h7, h8⟩ hc
      simp only [decide_eq_true_eq] at hc h1 h2 h3 h4 h5 h6 h7 h8
      obtain ⟨gs', r', e, a1, a2, a3, a4, a5⟩ := divide_out (d := d) (by omega) Radix h1 h2 h3 h4 (by
        intro hd
        refine Or.inr (Or.inr ?_)
        have hmf := h8 _ (Nat.minFac_prime (n := d) (by omega)) ((Nat.minFac_dvd d).trans hd)
        have := Nat.minFac_le (n := d) (by omega)
        have : d.minFac = d := by omega
        rw [← this]; exact Nat.minFac_prime (by omega))
      refine ⟨((gs', r'), d + 2), by simp only [e, Out.ok_bind]; rfl,
        ⟨a1, (Nat.le_of_dvd h1 a2).trans h2, a3, a4, by simp only []; omega, by simp only []; omega, fun h => h7 (h.trans a2), ?_⟩, ?_⟩
      · intro p hp hpr
        have b1 := h8 p hp (hpr.trans a2)
        have b2 : p ≠ d := by rintro rfl; exact a5 hpr
        have b3 : p % 2 = 1 := by
          rcases hp.eq_two_or_odd with e | e
          · subst e; exact absurd (hpr.trans a2) h7
          · exact e
        simp only []
        omega
      · have : d * 1 ≤ d * d := Nat.mul_le_mul_left _ (by omega)
        simp only []
        omega) (n + 1) ((fs, m), 3) (by simp only []; omega)
    ⟨hm, hle, hpr, hP, le_rfl, by norm_num, hodd, by
      intro p hp hpm
      have := hp.two_le
      rcases Nat.lt_or_ge 2 p with h | h
      · exact h
      · have : p = 2 := by omega
        subst this; exact absurd hpm hodd⟩
  simp only [decide_eq_false_iff_not, not_le] at hc h1 h2 h3 h4 h5 h6 h7 h8
  refine ⟨_, e, h1, h3, h4, ?_⟩
  intro hr
  simp only [] at hr ⊢
  by_contra hnp
  have hmf := Nat.minFac_sq_le_self h1 hnp
  have := h8 _ (Nat.minFac_prime (n := r) (by omega)) (Nat.minFac_dvd r)
  have := Nat.mul_le_mul this this
  rw [pow_two] at hmf
  omega

theorem swap_ends (l : List ℕ) : let f := l ++ [2]
    ((f.set 0 (f.getLastD 0)).set (f.length - 1) (f.headD 0)).prod = l.prod * 2 ∧
    ∀ x ∈ ((f.set 0 (f.getLastD 0)).set (f.length - 1) (f.headD 0)), x ∈ l ∨ x = 2 := by
  intro f
  rcases l with _ | ⟨a, l⟩
  · simp [f]
  · have e : (f.set 0 (f.getLastD 0)).set (f.length - 1) (f.headD 0) = 2 :: (l ++ [a]) := by
      simp only [f, List.cons_append, List.headD_cons, List.set_cons_zero, List.length_cons, List.length_append,
        List.length_nil, Nat.zero_add, Nat.add_sub_cancel, List.set_cons_succ]
      rw [List.set_append]
      have hl : (a :: (l ++ [2])).getLast?.getD 0 = 2 := by
        rw [← List.cons_append, List.getLast?_append]; simp
      simp [hl]
    rw [e]
    constructor
    · simp; ring
    · intro x hx
      simp at hx ⊢
      tauto

theorem cfactorize_ok {n : ℕ} (hn : 0 < n) :
    ∃ fs, cfactorize n = .ok fs ∧ fs.prod = n ∧ ∀ f ∈ fs, Radix f := by
  obtain ⟨g1, r1, e1, a1, a2, a3, a4, a5⟩ := divide_out (n := n) (d := 8) (by omega) Radix (fs := []) (m := n) hn
    le_rfl (by simp) (by simp) (fun _ => Or.inr (Or.inl rfl))
  obtain ⟨g2, r2, e2, b1, b2, b3, b4, b5⟩ := divide_out (n := n) (d := 4) (by omega) Radix (fs := g1) (m := r1) a1
    (Nat.le_of_dvd hn a2) a3 a4 (fun _ => Or.inl rfl)
  have hr2 : r2 ≤ n := (Nat.le_of_dvd a1 b2).trans (Nat.le_of_dvd hn a2)
  unfold cfactorize
  simp only [e1, e2, Out.ok_bind]
  obtain ⟨s, hs, c1, c2, c3, c4⟩ : ∃ s : List ℕ × ℕ, s = (if r2 % 2 = 0 then
      (((g2 ++ [2]).set 0 ((g2 ++ [2]).getLastD 0)).set ((g2 ++ [2]).length - 1) ((g2 ++ [2]).headD 0), r2 / 2)
      else (g2, r2)) ∧ 0 < s.2 ∧ s.2 ≤ n ∧ s.1.prod * s.2 = n ∧ (∀ f ∈ s.1, Radix f) ∧ ¬ 2 ∣ s.2 := by
    refine ⟨_, rfl, ?_⟩
    split
    · rename_i h
      have h2 : 2 ∣ r2 := Nat.dvd_of_mod_eq_zero h
      obtain ⟨p1, p2⟩ := swap_ends g2
      refine ⟨Nat.div_pos (Nat.le_of_dvd b1 h2) (by omega), by simp only []; omega, ?_, ?_, ?_⟩
      · change List.prod _ * (r2 / 2) = n
        rw [p1, mul_assoc, Nat.mul_div_cancel' h2, b3]
      · intro f hf
        rcases p2 f hf with h | h
        · exact b4 f h
        · subst h; exact Or.inr (Or.inr Nat.prime_two)
      · intro h4
        simp only [] at h4
        apply b5
        omega
    · rename_i h
      exact ⟨b1, hr2, b3, b4, fun h' => h (Nat.mod_eq_zero_of_dvd h')⟩
  simp only [← hs]
  obtain ⟨t, et, d1, d2, d3, d4⟩ := trial c1 c2 c3 c4.1 c4.2
  rw [show ((s.1, s.2), 3) = (s, 3) from rfl] at et
  simp only [Out.pure_def] at et
  simp only [Out.pure_def]
  rw [et, Out.ok_bind]
  refine ⟨_, rfl, ?_, ?_⟩
  · split
    · simp [d2]
    · have : t.1.2 = 1 := by omega
      rw [← d2, this, mul_one]
  · split
    · rename_i h
      intro f hf
      simp only [List.mem_append, List.mem_singleton] at hf
      rcases hf with hf | rfl
      · exact d3 f hf
      · exact Or.inr (Or.inr (d4 h))
    · exact d3

end Verif.Pocket
