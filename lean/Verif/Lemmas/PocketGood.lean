import Verif.Model.PocketBlue
import Verif.Lemmas.PocketFactor
import Mathlib.Tactic.IntervalCases
import Mathlib.Tactic.NormNum.Prime
import Mathlib.Data.Nat.Log

/-! # The sizes of the padded transforms -/

set_option linter.unusedSimpArgs false
set_option linter.unusedVariables false

namespace Verif.Pocket

/-- `body` searches the smallest number that is at least `n` and has the property `C`. -/
def Search (n : ℕ) (C : ℕ → Prop) (body : ℕ → Out (ℕ × Bool)) : Prop :=
  ∀ best, n ≤ best → best ≤ 2 * n → ∃ b r, body best = .ok (b, r) ∧ (r = true → C n) ∧
    (r = false → b ≤ best ∧ n ≤ b ∧ (b = best ∨ C b) ∧ ∀ v, C v → n ≤ v → b ≤ v)

theorem stair_loop {n f : ℕ} (hn : 0 < n) (hf : f % 2 = 1) : ∀ (fuel a b best : ℕ), a + (n - b) + 2 ≤ fuel →
    n ≤ best → (∀ a' b', n ≤ f * 2 ^ a' * 3 ^ b' → best ≤ f * 2 ^ a' * 3 ^ b' ∨ (a' ≤ a ∧ b ≤ b')) →
    ∃ s, whileN fuel (fun s : Stair => !s.stop) (fun s =>
      if s.x < n then .ok { s with x := s.x * 3 }
      else if s.x > n then
        let best := if s.x < s.best then s.x else s.best
        if s.x % 2 = 1 then .ok ⟨s.x, best, true, false⟩
        else .ok ⟨s.x / 2, best, false, false⟩
      else .ok ⟨s.x, s.best, true, true⟩) (⟨f * 2 ^ a * 3 ^ b, best, false, false⟩ : Stair) = .ok s ∧
      (s.ret = true → ∃ a b, n = f * 2 ^ a * 3 ^ b) ∧
      (s.ret = false → s.best ≤ best ∧ n ≤ s.best ∧ (s.best = best ∨ ∃ a b, s.best = f * 2 ^ a * 3 ^ b) ∧
        ∀ a b, n ≤ f * 2 ^ a * 3 ^ b → s.best ≤ f * 2 ^ a * 3 ^ b)
  | 0, _, _, _, h, _, _ => by omega
  | 1, _, _, _, h, _, _ => by omega
  | fuel + 2, a, b, best, h, hb, hI => by
    rw [whileN]
    simp only [Bool.not_false, if_true]
    have hbn : f * 2 ^ a * 3 ^ b < n → b < n := by
      intro hlt
      have h1 : b < 3 ^ b := Nat.lt_pow_self (by norm_num)
      have h2 : 1 * 3 ^ b ≤ f * 2 ^ a * 3 ^ b :=
        Nat.mul_le_mul_right _ (Nat.mul_pos (by omega) (by positivity))
      omega
    by_cases c1 : f * 2 ^ a * 3 ^ b < n
    · rw [if_pos c1, Out.ok_bind, show f * 2 ^ a * 3 ^ b * 3 = f * 2 ^ a * 3 ^ (b + 1) by ring]
      refine stair_loop hn hf (fuel + 1) a (b + 1) best (by have := hbn c1; omega) hb ?_
      intro a' b' hv
      rcases hI a' b' hv with h1 | ⟨h1, h2⟩
      · exact Or.inl h1
      · right
        refine ⟨h1, ?_⟩
        by_contra hc
        have : b' = b := by omega
        subst this
        have : f * 2 ^ a' * 3 ^ b' ≤ f * 2 ^ a * 3 ^ b' :=
          Nat.mul_le_mul_right _ (Nat.mul_le_mul_left _ (Nat.pow_le_pow_right (by norm_num) h1))
        omega
    · rw [if_neg c1]
      by_cases c2 : f * 2 ^ a * 3 ^ b > n
      · rw [if_pos c2]
        obtain ⟨best', hbest⟩ : ∃ q, q = if f * 2 ^ a * 3 ^ b < best then f * 2 ^ a * 3 ^ b else best := ⟨_, rfl⟩
        rw [← hbest]
        have hb1 : best' ≤ best ∧ best' ≤ f * 2 ^ a * 3 ^ b ∧ n ≤ best' ∧
            (best' = best ∨ best' = f * 2 ^ a * 3 ^ b) := by
          rw [hbest]; split <;> omega
        obtain ⟨k1, k2, k3, k4⟩ := hb1
        have hstep : ∀ a' b', n ≤ f * 2 ^ a' * 3 ^ b' → best' ≤ f * 2 ^ a' * 3 ^ b' ∨ (a' < a ∧ b ≤ b') := by
          intro a' b' hv
          rcases hI a' b' hv with h1 | ⟨h1, h2⟩
          · left; omega
          · rcases Nat.lt_or_ge a' a with h3 | h3
            · exact Or.inr ⟨h3, h2⟩
            · left
              have : a' = a := by omega
              subst this
              exact k2.trans (Nat.mul_le_mul_left _ (Nat.pow_le_pow_right (by norm_num) h2))
        rcases Nat.eq_zero_or_pos a with ha | ha
        · subst ha
          have hodd : f * 2 ^ 0 * 3 ^ b % 2 = 1 := by
            rw [pow_zero, mul_one, Nat.mul_mod, hf, Nat.pow_mod]; norm_num
          rw [if_pos hodd, Out.ok_bind, whileN]
          simp only [Bool.not_true, Bool.false_eq_true, if_false]
          refine ⟨_, rfl, by simp, fun _ => ⟨k1, k3, ?_, ?_⟩⟩
          · rcases k4 with h | h
            · exact Or.inl h
            · exact Or.inr ⟨0, b, h⟩
          · intro a' b' hv
            rcases hstep a' b' hv with h1 | ⟨h1, _⟩
            · exact h1
            · omega
        · obtain ⟨a, rfl⟩ : ∃ q, a = q + 1 := ⟨a - 1, by omega⟩
          have e : f * 2 ^ (a + 1) * 3 ^ b = f * 2 ^ a * 3 ^ b * 2 := by ring
          rw [if_neg (by rw [e]; omega), Out.ok_bind, show f * 2 ^ (a + 1) * 3 ^ b / 2 = f * 2 ^ a * 3 ^ b by rw [e]; omega]
          obtain ⟨s, e1, e2, e3⟩ := stair_loop hn hf (fuel + 1) a b best' (by omega) k3 (by
            intro a' b' hv
            rcases hstep a' b' hv with h1 | ⟨h1, h2⟩
            · exact Or.inl h1
            · exact Or.inr ⟨by omega, h2⟩)
          refine ⟨s, e1, e2, fun hr => ?_⟩
          obtain ⟨g1, g2, g3, g4⟩ := e3 hr
          refine ⟨g1.trans k1, g2, ?_, g4⟩
          rcases g3 with h | h
          · rcases k4 with h' | h'
            · exact Or.inl (h.trans h')
            · exact Or.inr ⟨a + 1, b, h.trans h'⟩
          · exact Or.inr h
      · rw [if_neg c2, Out.ok_bind, whileN]
        simp only [Bool.not_true, Bool.false_eq_true, if_false]
        exact ⟨_, rfl, fun _ => ⟨a, b, by omega⟩, by simp⟩

theorem double_loop {n f : ℕ} (hf : 0 < f) : ∃ a, whileN (n + 1) (fun x : ℕ => decide (x < n))
    (fun x => .ok (x * 2)) f = .ok (f * 2 ^ a) ∧ n ≤ f * 2 ^ a ∧ a ≤ n := by
  have key : ∀ fuel a, n + 1 ≤ fuel + a → a ≤ n → ∃ a', whileN fuel (fun x : ℕ => decide (x < n))
      (fun x => .ok (x * 2)) (f * 2 ^ a) = .ok (f * 2 ^ a') ∧ n ≤ f * 2 ^ a' ∧ a' ≤ n := by
    intro fuel
    induction fuel with
    | zero => intro a h h'; omega
    | succ fuel ih =>
      intro a h h'
      rw [whileN]
      by_cases c : f * 2 ^ a < n
      · have h1 : a < 2 ^ a := Nat.lt_two_pow_self
        have h2 : 1 * 2 ^ a ≤ f * 2 ^ a := Nat.mul_le_mul_right _ hf
        rw [if_pos (by simpa using c), Out.ok_bind, show f * 2 ^ a * 2 = f * 2 ^ (a + 1) by ring]
        exact ih (a + 1) (by omega) (by omega)
      · rw [if_neg (by simpa using c)]
        exact ⟨a, rfl, by omega, h'⟩
  have := key (n + 1) 0 (by omega) (by omega)
  simpa using this

theorem stair_search {n f : ℕ} (hn : 0 < n) (hf : f % 2 = 1) :
    Search n (fun v => ∃ a b, v = f * 2 ^ a * 3 ^ b) (stair n f) := by
  intro best h1 h2
  obtain ⟨a, e1, e2, e3⟩ := double_loop (n := n) (f := f) (by omega)
  obtain ⟨s, g1, g2, g3⟩ := stair_loop hn hf (2 * n + 3) a 0 best (by omega) h1 (by
    intro a' b' hv
    rcases Nat.lt_or_ge a a' with h | h
    · left
      have k1 : f * 2 ^ (a + 1) * 3 ^ 0 ≤ f * 2 ^ a' * 3 ^ b' :=
        Nat.mul_le_mul (Nat.mul_le_mul_left _ (Nat.pow_le_pow_right (by norm_num) h))
          (Nat.pow_le_pow_right (by norm_num) (by omega))
      have k2 : f * 2 ^ (a + 1) * 3 ^ 0 = f * 2 ^ a * 2 := by ring
      omega
    · exact Or.inr ⟨h, by omega⟩)
  refine ⟨s.best, s.ret, ?_, g2, ?_⟩
  · unfold stair
    rw [e1, Out.ok_bind]
    rw [pow_zero, mul_one] at g1
    rw [g1, Out.ok_bind]
    rfl
  · intro hr
    obtain ⟨k1, k2, k3, k4⟩ := g3 hr
    refine ⟨k1, k2, k3, ?_⟩
    rintro v ⟨a, b, rfl⟩ hv
    exact k4 a b hv

theorem geo_search {n g p : ℕ} (hn : 0 < n) (hg : 0 < g) (hp : 2 ≤ p) {body : ℕ → ℕ → Out (ℕ × Bool)}
    {C : ℕ → ℕ → Prop} (hC : ∀ k v, C k v → g * p ^ k ≤ v)
    (hbody : ∀ k, Search n (C k) (body (g * p ^ k))) :
    Search n (fun v => ∃ k, C k v) (geoLoop n g p body) := by
  intro best h1 h2
  have key : ∀ fuel k b, 2 * n + 1 ≤ fuel + k → k ≤ 2 * n → n ≤ b → b ≤ best → (b = best ∨ ∃ k, C k b) →
      (∀ k' v, k' < k → C k' v → n ≤ v → b ≤ v) →
      ∃ s, whileN fuel (fun s : Geo => !s.ret && decide (s.f < s.best)) (fun s => do
        let r ← body s.f s.best
        pure (⟨s.f * p, r.1, r.2⟩ : Geo)) ⟨g * p ^ k, b, false⟩ = .ok s ∧
        (s.ret = true → ∃ k, C k n) ∧ (s.ret = false → s.best ≤ best ∧ n ≤ s.best ∧
          (s.best = best ∨ ∃ k, C k s.best) ∧ ∀ v, (∃ k, C k v) → n ≤ v → s.best ≤ v) := by
    intro fuel
    induction fuel with
    | zero => intro k b h h' ; omega
    | succ fuel ih =>
      intro k b h h' hb1 hb2 hb3 hb4
      rw [whileN]
      by_cases c : g * p ^ k < b
      · have hkk : k < 2 * n := by
          have a1 : k < p ^ k := Nat.lt_pow_self (by omega)
          have a2 : 1 * p ^ k ≤ g * p ^ k := Nat.mul_le_mul_right _ hg
          omega
        obtain ⟨b', r, e1, e2, e3⟩ := hbody k b hb1 (by omega)
        rw [if_pos (by simpa using c), bind_assoc, e1, Out.ok_bind, Out.pure_def, Out.ok_bind]
        cases r with
        | true =>
          obtain ⟨fuel, rfl⟩ : ∃ q, fuel = q + 1 := ⟨fuel - 1, by omega⟩
          rw [whileN]
          simp only [Bool.not_true, Bool.false_and, Bool.false_eq_true, if_false]
          exact ⟨_, rfl, fun _ => ⟨k, e2 rfl⟩, by simp⟩
        | false =>
          obtain ⟨g1, g2, g3, g4⟩ := e3 rfl
          rw [show g * p ^ k * p = g * p ^ (k + 1) by ring]
          refine ih (k + 1) b' (by omega) (by omega) g2 (g1.trans hb2) ?_ ?_
          · rcases g3 with h | h
            · rw [h]; exact hb3
            · exact Or.inr ⟨k, h⟩
          · intro k' v hk' hv hnv
            rcases Nat.lt_or_ge k' k with h | h
            · exact g1.trans (hb4 k' v h hv hnv)
            · have : k' = k := by omega
              subst this
              exact g4 v hv hnv
      · rw [if_neg (by simpa using c)]
        refine ⟨_, rfl, by simp, fun _ => ⟨hb2, hb1, hb3, ?_⟩⟩
        rintro v ⟨k', hv⟩ hnv
        simp only []
        rcases Nat.lt_or_ge k' k with h | h
        · exact hb4 k' v h hv hnv
        · have a1 := hC k' v hv
          have a2 : g * p ^ k ≤ g * p ^ k' := Nat.mul_le_mul_left _ (Nat.pow_le_pow_right (by omega) h)
          omega
  obtain ⟨s, e1, e2, e3⟩ := key (2 * n + 1) 0 best (by omega) (by omega) h1 le_rfl (Or.inl rfl) (by omega)
  refine ⟨s.best, s.ret, ?_, e2, e3⟩
  unfold geoLoop
  rw [pow_zero, mul_one] at e1
  rw [e1, Out.ok_bind]
  rfl

/-! ### smooth numbers -/

theorem smooth11 : ∀ m, 0 < m → (∀ p, p.Prime → p ∣ m → p ≤ 11) →
    ∃ c d e a b, m = 11 ^ c * 7 ^ d * 5 ^ e * 2 ^ a * 3 ^ b := by
  intro m
  induction m using Nat.strong_induction_on with
  | _ m ih =>
    intro hm h
    by_cases h1 : m = 1
    · exact ⟨0, 0, 0, 0, 0, by simp [h1]⟩
    · have hp := Nat.minFac_prime h1
      have hd := Nat.minFac_dvd m
      obtain ⟨p, hpe⟩ : ∃ p, p = m.minFac := ⟨_, rfl⟩
      rw [← hpe] at hp hd
      have hle := h p hp hd
      obtain ⟨q, hq⟩ := hd
      have hq0 : 0 < q := by
        rcases Nat.eq_zero_or_pos q with e | e
        · subst e; omega
        · exact e
      have hlt : q < m := by
        have := Nat.mul_le_mul_right q hp.two_le
        omega
      obtain ⟨c, d, e, a, b, hc⟩ := ih q hlt hq0 (fun r hr hrq => h r hr (hrq.trans ⟨p, by rw [hq, Nat.mul_comm]⟩))
      have h2 := hp.two_le
      rw [hq, hc]
      interval_cases p
      · exact ⟨c, d, e, a + 1, b, by ring⟩
      · exact ⟨c, d, e, a, b + 1, by ring⟩
      · exact absurd hp (by norm_num)
      · exact ⟨c, d, e + 1, a, b, by ring⟩
      · exact absurd hp (by norm_num)
      · exact ⟨c, d + 1, e, a, b, by ring⟩
      · exact absurd hp (by norm_num)
      · exact absurd hp (by norm_num)
      · exact absurd hp (by norm_num)
      · exact ⟨c + 1, d, e, a, b, by ring⟩

theorem smooth11_conv {c d e a b p : ℕ} (hp : p.Prime) (h : p ∣ 11 ^ c * 7 ^ d * 5 ^ e * 2 ^ a * 3 ^ b) : p ≤ 11 := by
  have key : ∀ q k : ℕ, 0 < q → p ∣ q ^ k → p ≤ q := fun q k hq h => Nat.le_of_dvd hq (hp.dvd_of_dvd_pow h)
  rcases (Nat.Prime.dvd_mul hp).mp h with h | h
  · rcases (Nat.Prime.dvd_mul hp).mp h with h | h
    · rcases (Nat.Prime.dvd_mul hp).mp h with h | h
      · rcases (Nat.Prime.dvd_mul hp).mp h with h | h
        · exact key _ _ (by norm_num) h
        · exact (key _ _ (by norm_num) h).trans (by norm_num)
      · exact (key _ _ (by norm_num) h).trans (by norm_num)
    · exact (key _ _ (by norm_num) h).trans (by norm_num)
  · exact (key _ _ (by norm_num) h).trans (by norm_num)

theorem le_pow_mul {g q a b : ℕ} : g ≤ g * 2 ^ a * 3 ^ b := by
  have h1 : 1 ≤ 2 ^ a := Nat.one_le_two_pow
  have h2 : 1 ≤ 3 ^ b := Nat.one_le_pow _ _ (by norm_num)
  calc g = g * 1 * 1 := by ring
    _ ≤ g * 2 ^ a * 3 ^ b := Nat.mul_le_mul (Nat.mul_le_mul_left _ h1) h2

theorem pow_odd' {p k : ℕ} (hp : p % 2 = 1) : p ^ k % 2 = 1 := by
  rw [Nat.pow_mod, hp]; norm_num

/-- `good_size_cmplx` -/
theorem goodSizeCmplx_ok {n : ℕ} (hn : 0 < n) : ∃ m, goodSizeCmplx n = .ok m ∧ n ≤ m ∧
    (∀ p, p.Prime → p ∣ m → p ≤ 11) ∧ ∀ v, n ≤ v → (∀ p, p.Prime → p ∣ v → p ≤ 11) → m ≤ v := by
  unfold goodSizeCmplx
  by_cases h12 : n ≤ 12
  · rw [if_pos h12]
    refine ⟨n, rfl, le_rfl, ?_, fun v hv _ => hv⟩
    intro p hp hpn
    have := Nat.le_of_dvd hn hpn
    by_contra hc
    have : p = 12 := by omega
    subst this
    exact absurd hp (by norm_num)
  · rw [if_neg h12]
    have s1 : ∀ c d, Search n (fun v => ∃ e a b, v = 11 ^ c * 7 ^ d * 5 ^ e * 2 ^ a * 3 ^ b)
        (geoLoop n (11 ^ c * 7 ^ d) 5 (fun f1175 => stair n f1175)) := by
      intro c d
      refine geo_search hn (by positivity) (by norm_num) (C := fun e v => ∃ a b, v = 11 ^ c * 7 ^ d * 5 ^ e * 2 ^ a * 3 ^ b) ?_ ?_
      · rintro e v ⟨a, b, rfl⟩; exact le_pow_mul (q := 0)
      · intro e
        refine stair_search hn ?_
        rw [Nat.mul_mod, Nat.mul_mod (11 ^ c), pow_odd' (by norm_num), pow_odd' (by norm_num), pow_odd' (by norm_num)]
    have s2 : ∀ c, Search n (fun v => ∃ d e a b, v = 11 ^ c * 7 ^ d * 5 ^ e * 2 ^ a * 3 ^ b)
        (geoLoop n (11 ^ c) 7 (fun f117 => geoLoop n f117 5 (fun f1175 => stair n f1175))) := by
      intro c
      refine geo_search hn (by positivity) (by norm_num)
        (C := fun d v => ∃ e a b, v = 11 ^ c * 7 ^ d * 5 ^ e * 2 ^ a * 3 ^ b) ?_ (s1 c)
      rintro d v ⟨e, a, b, rfl⟩
      exact (Nat.le_mul_of_pos_right _ (by positivity)).trans (le_pow_mul (q := 0))
    have s3 := geo_search (n := n) (g := 1) (p := 11) hn (by norm_num) (by norm_num)
        (body := fun f11 => geoLoop n f11 7 (fun f117 => geoLoop n f117 5 (fun f1175 => stair n f1175)))
        (C := fun c v => ∃ d e a b, v = 11 ^ c * 7 ^ d * 5 ^ e * 2 ^ a * 3 ^ b) (by
      rintro c v ⟨d, e, a, b, rfl⟩
      rw [one_mul]
      exact ((Nat.le_mul_of_pos_right _ (by positivity)).trans (Nat.le_mul_of_pos_right _ (by positivity))).trans (le_pow_mul (q := 0))) (by
      intro c; rw [one_mul]; exact s2 c)
    obtain ⟨b, r, e1, e2, e3⟩ := s3 (2 * n) (by omega) le_rfl
    rw [e1, Out.ok_bind]
    cases r with
    | true =>
      obtain ⟨c, d, e, a, b, hv⟩ := e2 rfl
      refine ⟨n, rfl, le_rfl, ?_, fun v hv _ => hv⟩
      intro p hp hpn
      rw [hv] at hpn
      exact smooth11_conv hp hpn
    | false =>
      obtain ⟨g1, g2, g3, g4⟩ := e3 rfl
      have hmin : ∀ v, n ≤ v → (∀ p, p.Prime → p ∣ v → p ≤ 11) → b ≤ v := by
        intro v hv hs
        obtain ⟨c, d, e, a, b', rfl⟩ := smooth11 v (by omega) hs
        exact g4 _ ⟨c, d, e, a, b', rfl⟩ hv
      refine ⟨b, rfl, g2, ?_, hmin⟩
      have hlt : b < 2 * n := by
        obtain ⟨k, hk1, hk2⟩ : ∃ k, n ≤ 2 ^ k ∧ 2 ^ k < 2 * n := by
          refine ⟨Nat.clog 2 n, Nat.le_pow_clog (by norm_num) _, ?_⟩
          have := Nat.pow_pred_clog_lt_self (b := 2) (by norm_num) (x := n) (by omega)
          have h0 : 0 < Nat.clog 2 n := Nat.clog_pos (by norm_num) (by omega)
          have e : 2 ^ Nat.clog 2 n = 2 * 2 ^ (Nat.clog 2 n).pred := by
            rw [← pow_succ']; congr 1; rw [Nat.pred_eq_sub_one]; omega
          omega
        have := hmin (2 ^ k) hk1 (by
          intro p hp hpd
          have := Nat.le_of_dvd (by norm_num) (hp.dvd_of_dvd_pow hpd)
          omega)
        omega
      rcases g3 with h | ⟨c, d, e, a, b', rfl⟩
      · omega
      · intro p hp hpd
        exact smooth11_conv hp hpd

theorem smooth5 : ∀ m, 0 < m → (∀ p, p.Prime → p ∣ m → p ≤ 5) → ∃ e a b, m = 5 ^ e * 2 ^ a * 3 ^ b := by
  intro m hm h
  obtain ⟨c, d, e, a, b, hv⟩ := smooth11 m hm (fun p hp hd => (h p hp hd).trans (by norm_num))
  have hc : c = 0 := by
    by_contra h0
    have := h 11 (by norm_num) (by
      rw [hv]
      exact ((((dvd_pow_self 11 h0).mul_right _).mul_right _).mul_right _).mul_right _)
    omega
  have hd : d = 0 := by
    by_contra h0
    have := h 7 (by norm_num) (by
      rw [hv]
      exact ((((dvd_pow_self 7 h0).mul_left _).mul_right _).mul_right _).mul_right _)
    omega
  subst hc hd
  exact ⟨e, a, b, by rw [hv]; ring⟩

theorem smooth5_conv {e a b p : ℕ} (hp : p.Prime) (h : p ∣ 5 ^ e * 2 ^ a * 3 ^ b) : p ≤ 5 := by
  have key : ∀ q k : ℕ, 0 < q → p ∣ q ^ k → p ≤ q := fun q k hq h => Nat.le_of_dvd hq (hp.dvd_of_dvd_pow h)
  rcases (Nat.Prime.dvd_mul hp).mp h with h | h
  · rcases (Nat.Prime.dvd_mul hp).mp h with h | h
    · exact key _ _ (by norm_num) h
    · exact (key _ _ (by norm_num) h).trans (by norm_num)
  · exact (key _ _ (by norm_num) h).trans (by norm_num)

/-- `good_size_real` -/
theorem goodSizeReal_ok {n : ℕ} (hn : 0 < n) : ∃ m, goodSizeReal n = .ok m ∧ n ≤ m ∧
    (∀ p, p.Prime → p ∣ m → p ≤ 5) ∧ ∀ v, n ≤ v → (∀ p, p.Prime → p ∣ v → p ≤ 5) → m ≤ v := by
  unfold goodSizeReal
  by_cases h6 : n ≤ 6
  · rw [if_pos h6]
    refine ⟨n, rfl, le_rfl, ?_, fun v hv _ => hv⟩
    intro p hp hpn
    have := Nat.le_of_dvd hn hpn
    by_contra hc
    have : p = 6 := by omega
    subst this
    exact absurd hp (by norm_num)
  · rw [if_neg h6]
    have s3 := geo_search (n := n) (g := 1) (p := 5) hn (by norm_num) (by norm_num)
        (body := fun f5 => stair n f5) (C := fun e v => ∃ a b, v = 5 ^ e * 2 ^ a * 3 ^ b) (by
      rintro e v ⟨a, b, rfl⟩
      rw [one_mul]
      exact le_pow_mul (q := 0)) (by
      intro e; rw [one_mul]
      exact stair_search hn (pow_odd' (by norm_num)))
    obtain ⟨b, r, e1, e2, e3⟩ := s3 (2 * n) (by omega) le_rfl
    rw [e1, Out.ok_bind]
    cases r with
    | true =>
      obtain ⟨e, a, b, hv⟩ := e2 rfl
      refine ⟨n, rfl, le_rfl, ?_, fun v hv _ => hv⟩
      intro p hp hpn
      rw [hv] at hpn
      exact smooth5_conv hp hpn
    | false =>
      obtain ⟨g1, g2, g3, g4⟩ := e3 rfl
      have hmin : ∀ v, n ≤ v → (∀ p, p.Prime → p ∣ v → p ≤ 5) → b ≤ v := by
        intro v hv hs
        obtain ⟨e, a, b', rfl⟩ := smooth5 v (by omega) hs
        exact g4 _ ⟨e, a, b', rfl⟩ hv
      refine ⟨b, rfl, g2, ?_, hmin⟩
      have hlt : b < 2 * n := by
        obtain ⟨k, hk1, hk2⟩ : ∃ k, n ≤ 2 ^ k ∧ 2 ^ k < 2 * n := by
          refine ⟨Nat.clog 2 n, Nat.le_pow_clog (by norm_num) _, ?_⟩
          have := Nat.pow_pred_clog_lt_self (b := 2) (by norm_num) (x := n) (by omega)
          have h0 : 0 < Nat.clog 2 n := Nat.clog_pos (by norm_num) (by omega)
          have e : 2 ^ Nat.clog 2 n = 2 * 2 ^ (Nat.clog 2 n).pred := by
            rw [← pow_succ']; congr 1; rw [Nat.pred_eq_sub_one]; omega
          omega
        have := hmin (2 ^ k) hk1 (by
          intro p hp hpd
          have := Nat.le_of_dvd (by norm_num) (hp.dvd_of_dvd_pow hpd)
          omega)
        omega
      rcases g3 with h | ⟨e, a, b', rfl⟩
      · omega
      · intro p hp hpd
        exact smooth5_conv hp hpd

/-- `largest_prime_factor` -/
theorem largestPrimeFactor_ok {n : ℕ} (hn : 0 < n) : ∃ m, largestPrimeFactor n = .ok m ∧
    (n = 1 → m = 1) ∧ (1 < n → m.Prime ∧ m ∣ n) ∧ ∀ p, p.Prime → p ∣ n → p ≤ m := by
  have step : ∀ d r q, 2 ≤ d → 0 < q → q ∣ n → (d ∣ q → d.Prime) → (r = 1 ∨ r.Prime ∧ r ∣ n) → r < d →
      (∀ p, p.Prime → p ∣ n → p ∣ q ∨ p ≤ r) →
      ∃ r' q', whileN (n + 1) (fun t : ℕ × ℕ => decide (t.2 % d = 0)) (fun t => .ok (d, t.2 / d)) (r, q) = .ok (r', q') ∧
        0 < q' ∧ q' ∣ q ∧ (r' = 1 ∨ r'.Prime ∧ r' ∣ n) ∧ r' ≤ d ∧ (∀ p, p.Prime → p ∣ n → p ∣ q' ∨ p ≤ r') ∧ ¬ d ∣ q' := by
    intro d r q hd hq hqn hdp hr hrd hall
    obtain ⟨⟨r', q'⟩, e, ⟨h1, h2, h3, h4, h5⟩, hc⟩ := whileN_measure
      (cond := fun t : ℕ × ℕ => decide (t.2 % d = 0)) (body := fun t => .ok (d, t.2 / d))
      (fun t => 0 < t.2 ∧ t.2 ∣ q ∧ (t.1 = 1 ∨ t.1.Prime ∧ t.1 ∣ n) ∧ t.1 ≤ d ∧
        (∀ p, p.Prime → p ∣ n → p ∣ t.2 ∨ p ≤ t.1)) (fun t => t.2) (by
        rintro ⟨r', q'⟩ ⟨h1, h2, h3, h4, h5⟩ hc
        simp only [decide_eq_true_eq] at hc h1 h2 h3 h4 h5
        have hdq : d ∣ q' := Nat.dvd_of_mod_eq_zero hc
        refine ⟨_, rfl, ⟨Nat.div_pos (Nat.le_of_dvd h1 hdq) (by omega), (Nat.div_dvd_of_dvd hdq).trans h2, ?_, le_rfl, ?_⟩,
          Nat.div_lt_self h1 (by omega)⟩
        · exact Or.inr ⟨hdp (hdq.trans h2), (hdq.trans h2).trans hqn⟩
        · intro p hp hpn
          simp only []
          rcases h5 p hp hpn with h | h
          · obtain ⟨k, rfl⟩ := hdq
            rw [Nat.mul_div_cancel_left _ (by omega)]
            rcases (Nat.Prime.dvd_mul hp).mp h with h | h
            · exact Or.inr (Nat.le_of_dvd (by omega) h)
            · exact Or.inl h
          · exact Or.inr (h.trans h4)) (n + 1) (r, q) (by
        have := Nat.le_of_dvd hn hqn
        simp only []; omega) ⟨hq, dvd_rfl, hr, hrd.le, hall⟩
    refine ⟨r', q', e, h1, h2, h3, h4, h5, ?_⟩
    intro h
    simp only [decide_eq_false_iff_not] at hc
    exact hc (Nat.mod_eq_zero_of_dvd h)
  obtain ⟨r1, q1, e1, a1, a2, a3, a4, a5, a6⟩ := step 2 1 n le_rfl hn dvd_rfl (fun _ => Nat.prime_two) (Or.inl rfl)
    (by norm_num) (fun p _ h => Or.inl h)
  obtain ⟨⟨⟨r, q⟩, x⟩, e2, ⟨h1, h2, h3, h4, h5, h6, h7, h8⟩, hc⟩ := whileN_measure
    (cond := fun s : (ℕ × ℕ) × ℕ => decide (s.2 * s.2 ≤ s.1.2))
    (body := fun s => do
      let t ← whileN (n + 1) (fun t : ℕ × ℕ => decide (t.2 % s.2 = 0)) (fun t => .ok (s.2, t.2 / s.2)) s.1
      pure (t, s.2 + 2))
    (fun s => 0 < s.1.2 ∧ s.1.2 ∣ n ∧ (s.1.1 = 1 ∨ s.1.1.Prime ∧ s.1.1 ∣ n) ∧ s.1.1 < s.2 ∧ s.2 % 2 = 1 ∧
      ¬ 2 ∣ s.1.2 ∧ (∀ p, p.Prime → p ∣ n → p ∣ s.1.2 ∨ p ≤ s.1.1) ∧ (∀ p, p.Prime → p ∣ s.1.2 → s.2 ≤ p))
    (fun s => n + 1 - s.2) (by
      rintro ⟨⟨r, q⟩, x⟩ ⟨h1, h2, h3, h4, h5, h6, h7, h8⟩ hc
      simp only [decide_eq_true_eq] at hc h1 h2 h3 h4 h5 h6 h7 h8
      have hx : 2 ≤ x := by rcases h3 with h | h <;> [skip; have := h.1.two_le] <;> omega
      obtain ⟨r', q', e, b1, b2, b3, b4, b5, b6⟩ := step x r q hx h1 h2 (by
        intro hd
        have hmf := h8 _ (Nat.minFac_prime (n := x) (by omega)) ((Nat.minFac_dvd x).trans hd)
        have := Nat.minFac_le (n := x) (by omega)
        have : x.minFac = x := by omega
        rw [← this]; exact Nat.minFac_prime (by omega)) h3 h4 h7
      refine ⟨((r', q'), x + 2), by simp only [e, Out.ok_bind]; rfl,
        ⟨b1, b2.trans h2, b3, by simp only []; omega, by simp only []; omega, fun h => h6 (h.trans b2), b5, ?_⟩, ?_⟩
      · intro p hp hpq
        simp only []
        have c1 := h8 p hp (hpq.trans b2)
        have c2 : p ≠ x := by rintro rfl; exact b6 hpq
        have c3 : p % 2 = 1 := by
          rcases hp.eq_two_or_odd with e | e
          · subst e; exact absurd (hpq.trans b2) h6
          · exact e
        omega
      · have : x * 1 ≤ x * x := Nat.mul_le_mul_left _ (by omega)
        have := Nat.le_of_dvd hn h2
        simp only []
        omega) (n + 1) ((r1, q1), 3) (by simp only []; omega)
    ⟨a1, a2, a3, by simp only []; omega, by norm_num, a6, a5, by
      intro p hp hpq
      have := hp.two_le
      rcases Nat.lt_or_ge 2 p with h | h
      · exact h
      · have : p = 2 := by omega
        subst this; exact absurd hpq a6⟩
  simp only [decide_eq_false_iff_not, not_le] at hc h1 h2 h3 h4 h5 h6 h7 h8
  unfold largestPrimeFactor
  rw [e1, Out.ok_bind, e2, Out.ok_bind]
  refine ⟨_, rfl, ?_⟩
  simp only []
  by_cases hq : q > 1
  · rw [if_pos hq]
    have hqp : q.Prime := by
      by_contra hnp
      have hmf := Nat.minFac_sq_le_self h1 hnp
      have := h8 _ (Nat.minFac_prime (n := q) (by omega)) (Nat.minFac_dvd q)
      have := Nat.mul_le_mul this this
      rw [pow_two] at hmf
      omega
    have hxq := h8 q hqp dvd_rfl
    refine ⟨?_, fun _ => ⟨hqp, h2⟩, ?_⟩
    · intro h; subst h; have := Nat.le_of_dvd (by norm_num) h2; omega
    · intro p hp hpn
      rcases h7 p hp hpn with h | h
      · exact Nat.le_of_dvd h1 h
      · omega
  · rw [if_neg hq]
    have hq1 : q = 1 := by omega
    subst hq1
    have hle : ∀ p, p.Prime → p ∣ n → p ≤ r := by
      intro p hp hpn
      rcases h7 p hp hpn with h | h
      · have := Nat.le_of_dvd (by norm_num) h; have := hp.two_le; omega
      · exact h
    refine ⟨?_, ?_, hle⟩
    · intro h
      rcases h3 with h3 | h3
      · exact h3
      · subst h; have := Nat.le_of_dvd (by norm_num) h3.2; have := h3.1.two_le; omega
    · intro h
      rcases h3 with h3 | h3
      · have a := hle _ (Nat.minFac_prime (n := n) (by omega)) (Nat.minFac_dvd n)
        have b := (Nat.minFac_prime (n := n) (by omega)).two_le
        omega
      · exact h3

end Verif.Pocket
