import Verif.Lemmas.RationalTotal

/-!
Sharp success conditions for the `Rational` operations: everything succeeds as long as the operands, written over a common
denominator, and the results fit the type.
-/

set_option linter.unusedSimpArgs false

namespace Verif
namespace Rational
variable {c : ICfg}

/-- `r` is the canonical form of `m / D`. -/
def Rep (r : Rational) (m D : ℤ) : Prop := Canon r ∧ 0 < D ∧ r.val = (m : ℚ) / D

theorem Rep.cross {r : Rational} {m D : ℤ} (h : Rep r m D) : r.num * D = m * r.den := by
  obtain ⟨h1, h2, h3⟩ := h
  have a : (r.den : ℚ) ≠ 0 := by exact_mod_cast h1.1.ne'
  have b : (D : ℚ) ≠ 0 := by exact_mod_cast h2.ne'
  unfold val at h3
  rw [div_eq_div_iff a b] at h3
  exact_mod_cast h3

theorem Rep.split {r : Rational} {m D : ℤ} (h : Rep r m D) : ∃ e, 0 < e ∧ D = r.den * e ∧ m = r.num * e := by
  have hx := h.cross
  obtain ⟨h1, h2, h3⟩ := h
  have hd : r.den ∣ r.num * D := ⟨m, by rw [hx]; ring⟩
  have hc : IsCoprime r.den r.num := by
    rw [Int.isCoprime_iff_gcd_eq_one, Int.gcd_comm]; exact h1.2
  obtain ⟨e, he⟩ := hc.dvd_of_dvd_mul_left hd
  refine ⟨e, ?_, he, ?_⟩
  · have := h1.1
    rw [he] at h2
    exact pos_of_mul_pos_right h2 this.le
  · have : r.num * e * r.den = m * r.den := by rw [← hx, he]; ring
    exact (mul_right_cancel₀ h1.1.ne' this).symm

theorem Rep.den_le {r : Rational} {m D : ℤ} (h : Rep r m D) : r.den ≤ D := by
  obtain ⟨e, e0, e1, e2⟩ := h.split
  have := h.1.1
  nlinarith
theorem Rep.num_le {r : Rational} {m D : ℤ} (h : Rep r m D) : |r.num| ≤ |m| := by
  obtain ⟨e, e0, e1, e2⟩ := h.split
  rw [e2, abs_mul, abs_of_pos e0]
  nlinarith [abs_nonneg r.num]
theorem Rep.within {r : Rational} {m D M : ℤ} (h : Rep r m D) (hm : |m| ≤ M) (hD : D ≤ M) : Within M r := by
  refine ⟨h.num_le.trans hm, ?_⟩
  rw [abs_of_pos h.1.1]
  exact h.den_le.trans hD

theorem rep_ofInt (k : ℤ) : Rep (ofInt k) k 1 := ⟨canon_ofInt k, one_pos, by rw [val_ofInt]; simp⟩

/-- A canonical representation always exists. -/
theorem rep_exists (m D : ℤ) (h : 0 < D) : ∃ r, Rep r m D := by
  refine ⟨⟨((m : ℚ) / D).num, ((m : ℚ) / D).den⟩, ⟨?_, ?_⟩, h, ?_⟩
  · show (0 : ℤ) < (((m : ℚ) / D).den : ℤ)
    exact_mod_cast Rat.den_pos _
  · exact ((m : ℚ) / D).reduced
  · unfold val
    simp only [Int.cast_natCast]
    exact Rat.num_div_den ((m : ℚ) / D)

theorem Rep.scale {r : Rational} {m D : ℤ} (h : Rep r m D) {k : ℤ} (hk : 0 < k) : Rep r (m * k) (D * k) := by
  refine ⟨h.1, mul_pos h.2.1 hk, ?_⟩
  rw [h.2.2]
  have : (k : ℚ) ≠ 0 := by exact_mod_cast hk.ne'
  push_cast
  rw [mul_div_mul_right _ _ this]

theorem make_rep {n d M : ℤ} (h : Holds c M) (hd : 0 < d) (hn : |n| ≤ M) (hd' : d ≤ M) :
    ∃ r, make c n d = .ok r ∧ Rep r n d := by
  obtain ⟨r, hr⟩ := make_tot h hd hn hd'
  obtain ⟨h1, h2⟩ := make_ok hd hr
  exact ⟨r, hr, h1, hd, h2⟩

/-- Bringing two numbers to a common denominator. -/
theorem common_rep {l r : Rational} {m₁ m₂ D M : ℤ} (hl : Rep l m₁ D) (hr : Rep r m₂ D) (hc : Holds c M)
    (h1 : |m₁| ≤ M) (h2 : |m₂| ≤ M) (hD : D ≤ M) :
    c.lcm l.den r.den = .ok (Int.lcm l.den r.den : ℤ) ∧
    c.div (Int.lcm l.den r.den : ℤ) l.den = .ok ((Int.lcm l.den r.den : ℤ) / l.den) ∧
    c.div (Int.lcm l.den r.den : ℤ) r.den = .ok ((Int.lcm l.den r.den : ℤ) / r.den) ∧
    (Int.lcm l.den r.den : ℤ) ≤ D ∧ 0 < (Int.lcm l.den r.den : ℤ) ∧
    ∃ e, 0 < e ∧ D = (Int.lcm l.den r.den : ℤ) * e ∧
    m₁ = l.num * ((Int.lcm l.den r.den : ℤ) / l.den) * e ∧ m₂ = r.num * ((Int.lcm l.den r.den : ℤ) / r.den) * e := by
  obtain ⟨e₁, p₁, d₁, n₁⟩ := hl.split
  obtain ⟨e₂, p₂, d₂, n₂⟩ := hr.split
  have hdv : (Int.lcm l.den r.den : ℤ) ∣ D := Int.coe_lcm_dvd ⟨e₁, d₁⟩ ⟨e₂, d₂⟩
  have hle := Int.le_of_dvd hl.2.1 hdv
  have hp := lcm_pos' hl.1.1 hr.1.1
  have habs : |(Int.lcm l.den r.den : ℤ)| ≤ M := by rw [abs_of_pos hp]; omega
  have wl := hl.within h1 hD
  have wr := hr.within h2 hD
  refine ⟨lcm_tot hc wl.2 wr.2 (by omega), div_tot hc (Int.dvd_lcm_left ..) hl.1.1.ne' habs,
    div_tot hc (Int.dvd_lcm_right ..) hr.1.1.ne' habs, hle, hp, ?_⟩
  obtain ⟨e, he⟩ := hdv
  obtain ⟨a, ha⟩ : l.den ∣ (Int.lcm l.den r.den : ℤ) := Int.dvd_lcm_left ..
  obtain ⟨b, hb⟩ : r.den ∣ (Int.lcm l.den r.den : ℤ) := Int.dvd_lcm_right ..
  have hlq : (Int.lcm l.den r.den : ℤ) / l.den = a := by
    rw [ha]; exact Int.mul_ediv_cancel_left _ hl.1.1.ne'
  have hrq : (Int.lcm l.den r.den : ℤ) / r.den = b := by
    rw [hb]; exact Int.mul_ediv_cancel_left _ hr.1.1.ne'
  refine ⟨e, ?_, he, ?_, ?_⟩
  · have := hl.2.1
    rw [he] at this
    exact pos_of_mul_pos_right this hp.le
  · rw [hlq, n₁, mul_assoc]
    congr 1
    have : l.den * e₁ = l.den * (a * e) := by rw [← d₁, he, ha]; ring
    exact mul_left_cancel₀ hl.1.1.ne' this
  · rw [hrq, n₂, mul_assoc]
    congr 1
    have : r.den * e₂ = r.den * (b * e) := by rw [← d₂, he, hb]; ring
    exact mul_left_cancel₀ hr.1.1.ne' this

theorem abs_le_abs_mul_pos {x e : ℤ} (h : 0 < e) : |x| ≤ |x * e| := by
  rw [abs_mul, abs_of_pos h]; nlinarith [abs_nonneg x]

theorem compare_rep {l r : Rational} {m₁ m₂ D M : ℤ} (hl : Rep l m₁ D) (hr : Rep r m₂ D) (hc : Holds c M)
    (h1 : |m₁| ≤ M) (h2 : |m₂| ≤ M) (hD : D ≤ M) :
    le c l r = .ok (decide (m₁ ≤ m₂)) ∧ ge c l r = .ok (decide (m₂ ≤ m₁)) := by
  obtain ⟨a1, a2, a3, a4, a5, e, e0, eD, em1, em2⟩ := common_rep hl hr hc h1 h2 hD
  have b1 := (em1 ▸ abs_le_abs_mul_pos (x := l.num * ((Int.lcm l.den r.den : ℤ) / l.den)) e0).trans h1
  have b2 := (em2 ▸ abs_le_abs_mul_pos (x := r.num * ((Int.lcm l.den r.den : ℤ) / r.den)) e0).trans h2
  have key : commonNumerators c l r = .ok (l.num * ((Int.lcm l.den r.den : ℤ) / l.den), r.num * ((Int.lcm l.den r.den : ℤ) / r.den)) := by
    simp only [commonNumerators, den_tot hl.1.1, den_tot hr.1.1, Out.ok_bind, a1, a2, a3, mul_tot hc b1, mul_tot hc b2, Out.pure_def]
  constructor
  · simp only [le, gt, key, Out.ok_bind, Out.pure_def]
    congr 1
    rw [em1, em2]
    simp only [gt_iff_lt, ← not_lt, mul_lt_mul_iff_of_pos_right e0, decide_not]
  · simp only [ge, lt, key, Out.ok_bind, Out.pure_def]
    congr 1
    rw [em1, em2]
    simp only [gt_iff_lt, ← not_lt, mul_lt_mul_iff_of_pos_right e0, decide_not]

theorem add_rep {l r : Rational} {m₁ m₂ D M : ℤ} (hl : Rep l m₁ D) (hr : Rep r m₂ D) (hc : Holds c M)
    (h1 : |m₁| ≤ M) (h2 : |m₂| ≤ M) (h3 : |m₁ + m₂| ≤ M) (hD : D ≤ M) :
    ∃ s, add c l r = .ok s ∧ Rep s (m₁ + m₂) D := by
  have htot : ∃ s, add c l r = .ok s := by
    obtain ⟨a1, a2, a3, a4, hp, e, e0, eD, em1, em2⟩ := common_rep hl hr hc h1 h2 hD
    have b1 := (em1 ▸ abs_le_abs_mul_pos (x := l.num * ((Int.lcm l.den r.den : ℤ) / l.den)) e0).trans h1
    have b2 := (em2 ▸ abs_le_abs_mul_pos (x := r.num * ((Int.lcm l.den r.den : ℤ) / r.den)) e0).trans h2
    have hs' : |l.num * ((Int.lcm l.den r.den : ℤ) / l.den) + r.num * ((Int.lcm l.den r.den : ℤ) / r.den)| ≤ M := by
      refine (abs_le_abs_mul_pos e0).trans ?_
      rw [add_mul, ← em1, ← em2]
      exact h3
    simp only [add, den_tot hl.1.1, den_tot hr.1.1, Out.ok_bind, a1, a2, a3, mul_tot hc b1, mul_tot hc b2, add_tot hc hs']
    generalize l.num * ((Int.lcm l.den r.den : ℤ) / l.den) + r.num * ((Int.lcm l.den r.den : ℤ) / r.den) = n at *
    generalize (Int.lcm l.den r.den : ℤ) = d at *
    have hdM : |d| ≤ M := by rw [abs_of_pos hp]; omega
    have hg := gcd_pos_right' n hp
    simp only [gcd_tot hc hs' hdM, Out.ok_bind, div_tot hc (Int.gcd_dvd_left ..) hg.ne' hs',
      div_tot hc (Int.gcd_dvd_right ..) hg.ne' hdM]
    refine make_tot hc (Int.ediv_pos_of_pos_of_dvd hp hg.le (Int.gcd_dvd_right ..))
      ((abs_ediv_le (Int.gcd_dvd_left ..)).trans hs') ?_
    exact (Int.ediv_le_self _ hp.le).trans (by omega)
  obtain ⟨s, hs⟩ := htot
  obtain ⟨g1, g2⟩ := add_ok hl.1 hr.1 hs
  refine ⟨s, hs, g1, hl.2.1, ?_⟩
  rw [g2, hl.2.2, hr.2.2]; push_cast; ring

theorem sub_rep {l r : Rational} {m₁ m₂ D M : ℤ} (hl : Rep l m₁ D) (hr : Rep r m₂ D) (hc : Holds c M)
    (h1 : |m₁| ≤ M) (h2 : |m₂| ≤ M) (h3 : |m₁ - m₂| ≤ M) (hD : D ≤ M) :
    ∃ s, sub c l r = .ok s ∧ Rep s (m₁ - m₂) D := by
  have htot : ∃ s, sub c l r = .ok s := by
    obtain ⟨a1, a2, a3, a4, hp, e, e0, eD, em1, em2⟩ := common_rep hl hr hc h1 h2 hD
    have b1 := (em1 ▸ abs_le_abs_mul_pos (x := l.num * ((Int.lcm l.den r.den : ℤ) / l.den)) e0).trans h1
    have b2 := (em2 ▸ abs_le_abs_mul_pos (x := r.num * ((Int.lcm l.den r.den : ℤ) / r.den)) e0).trans h2
    have hs' : |l.num * ((Int.lcm l.den r.den : ℤ) / l.den) - r.num * ((Int.lcm l.den r.den : ℤ) / r.den)| ≤ M := by
      refine (abs_le_abs_mul_pos e0).trans ?_
      rw [sub_mul, ← em1, ← em2]
      exact h3
    simp only [sub, den_tot hl.1.1, den_tot hr.1.1, Out.ok_bind, a1, a2, a3, mul_tot hc b1, mul_tot hc b2, sub_tot hc hs']
    generalize l.num * ((Int.lcm l.den r.den : ℤ) / l.den) - r.num * ((Int.lcm l.den r.den : ℤ) / r.den) = n at *
    generalize (Int.lcm l.den r.den : ℤ) = d at *
    have hdM : |d| ≤ M := by rw [abs_of_pos hp]; omega
    have hg := gcd_pos_right' n hp
    simp only [gcd_tot hc hs' hdM, Out.ok_bind, div_tot hc (Int.gcd_dvd_left ..) hg.ne' hs',
      div_tot hc (Int.gcd_dvd_right ..) hg.ne' hdM]
    refine make_tot hc (Int.ediv_pos_of_pos_of_dvd hp hg.le (Int.gcd_dvd_right ..))
      ((abs_ediv_le (Int.gcd_dvd_left ..)).trans hs') ?_
    exact (Int.ediv_le_self _ hp.le).trans (by omega)
  obtain ⟨s, hs⟩ := htot
  obtain ⟨g1, g2⟩ := sub_ok hl.1 hr.1 hs
  refine ⟨s, hs, g1, hl.2.1, ?_⟩
  rw [g2, hl.2.2, hr.2.2]; push_cast; ring

/-- Product: the operands and the (possibly simplified) product `m / D` must fit. -/
theorem mul_rep {l r : Rational} {m₁ D₁ m₂ D₂ m D M : ℤ} (hl : Rep l m₁ D₁) (hr : Rep r m₂ D₂) (hD : 0 < D)
    (he : m₁ * m₂ * D = m * (D₁ * D₂)) (hc : Holds c M) (wl : Within M l) (wr : Within M r) (hm : |m| ≤ M) (hDM : D ≤ M) :
    ∃ s, mul c l r = .ok s ∧ Rep s m D := by
  obtain ⟨t, ht⟩ := rep_exists m D hD
  refine ⟨t, mul_total_of_result hl.1 hr.1 ht.1 ?_ hc wl wr (ht.within hm hDM), ht⟩
  rw [ht.2.2, hl.2.2, hr.2.2]
  have a : (D : ℚ) ≠ 0 := by exact_mod_cast hD.ne'
  have b : (D₁ : ℚ) ≠ 0 := by exact_mod_cast hl.2.1.ne'
  have d : (D₂ : ℚ) ≠ 0 := by exact_mod_cast hr.2.1.ne'
  rw [div_mul_div_comm, div_eq_div_iff a (mul_ne_zero b d)]
  exact_mod_cast he.symm

/-- Quotient by a positive number. -/
theorem div_rep {l r : Rational} {m₁ D₁ m₂ D₂ m D M : ℤ} (hl : Rep l m₁ D₁) (hr : Rep r m₂ D₂) (h2 : 0 < m₂) (hD : 0 < D)
    (he : m₁ * D₂ * D = m * (D₁ * m₂)) (hc : Holds c M) (wl : Within M l) (wr : Within M r) (hm : |m| ≤ M) (hDM : D ≤ M) :
    ∃ s, div c l r = .ok s ∧ Rep s m D := by
  obtain ⟨e, e0, e1, e2⟩ := hr.split
  have hpos : 0 < r.num := by
    rw [e2] at h2
    exact pos_of_mul_pos_left h2 e0.le
  have hinv : Canon ⟨r.den, r.num⟩ := ⟨hpos, by rw [Int.gcd_comm]; exact hr.1.2⟩
  have wr1 := wr.1
  rw [abs_of_pos hpos] at wr1
  obtain ⟨s, hs1, hs2⟩ := make_rep (c := c) hc hpos wr.2 wr1
  have hse : s = ⟨r.den, r.num⟩ := canon_unique hs2.1 hinv hs2.2.2
  have hrep : Rep ⟨r.den, r.num⟩ D₂ m₂ := by
    refine ⟨hinv, h2, ?_⟩
    unfold val
    have a : (r.num : ℚ) ≠ 0 := by exact_mod_cast hpos.ne'
    have b : (m₂ : ℚ) ≠ 0 := by exact_mod_cast h2.ne'
    rw [div_eq_div_iff a b]
    rw [e1, e2]; push_cast; ring
  simp only [div, assert_tot (c := c) hpos.ne', Out.ok_bind, den_tot hr.1.1, if_neg (not_lt.2 hpos.le), one_mul,
    mul_tot (c := c) (a := 1) (b := r.den) hc (by simpa using wr.2), mul_tot (c := c) (a := 1) (b := r.num) hc (by simpa using wr.1),
    hs1, hse]
  exact mul_rep hl hrep hD he hc wl ⟨wr.2, wr.1⟩ hm hDM

theorem mulInt_rep {l : Rational} {k m D M : ℤ} (hl : Rep l m D) (hk : 0 ≤ k) (hc : Holds c M)
    (hm : |m| ≤ M) (hD : D ≤ M) (hkM : k ≤ M) (hr : |m * k| ≤ M) : ∃ s, mulInt c l k = .ok s ∧ Rep s (m * k) D := by
  have wl := hl.within hm hD
  have hg := gcd_pos_right' k hl.1.1
  have d1 : (Int.gcd k l.den : ℤ) ∣ k := Int.gcd_dvd_left ..
  have d2 : (Int.gcd k l.den : ℤ) ∣ l.den := Int.gcd_dvd_right ..
  have hk' : |k| ≤ M := by rwa [abs_of_nonneg hk]
  have hn : |l.num * (k / (Int.gcd k l.den : ℤ))| ≤ M := by
    refine le_trans ?_ hr
    rw [abs_mul, abs_mul]
    exact mul_le_mul hl.num_le (abs_ediv_le d1) (abs_nonneg _) (abs_nonneg _)
  have htot : ∃ s, mulInt c l k = .ok s := by
    simp only [mulInt, den_tot hl.1.1, Out.ok_bind, gcd_tot hc hk' wl.2,
      if_neg (not_lt.2 hk), one_mul, div_tot hc d1 hg.ne' hk',
      mul_tot (c := c) (a := 1) hc (by simpa using wl.1),
      mul_tot (c := c) (a := 1) (b := l.den) hc (by simpa using wl.2), mul_tot hc hn,
      div_tot hc d2 hg.ne' wl.2]
    exact make_tot hc (Int.ediv_pos_of_pos_of_dvd hl.1.1 hg.le d2) hn
      ((Int.ediv_le_self _ hl.1.1.le).trans ((le_abs_self _).trans wl.2))
  obtain ⟨s, hs⟩ := htot
  obtain ⟨g1, g2⟩ := mulInt_ok hl.1 (.inr hk) hs
  refine ⟨s, hs, g1, hl.2.1, ?_⟩
  rw [g2, hl.2.2]; push_cast; ring

theorem divInt_rep {l : Rational} {k m D M : ℤ} (hl : Rep l m D) (hk : 0 < k) (hc : Holds c M)
    (hm : |m| ≤ M) (hkM : k ≤ M) (hr : D * k ≤ M) : ∃ s, divInt c l k = .ok s ∧ Rep s m (D * k) := by
  have hD : D ≤ M := by nlinarith [hl.2.1]
  have wl := hl.within hm hD
  have hg : (0 : ℤ) < (Int.gcd k l.num : ℤ) := by exact_mod_cast Int.gcd_pos_of_ne_zero_left _ hk.ne'
  have d1 : (Int.gcd k l.num : ℤ) ∣ k := Int.gcd_dvd_left ..
  have d2 : (Int.gcd k l.num : ℤ) ∣ l.num := Int.gcd_dvd_right ..
  have hk' : |k| ≤ M := by rwa [abs_of_pos hk]
  have hd' : |l.den * (k / (Int.gcd k l.num : ℤ))| ≤ M := by
    refine le_trans ?_ hr
    rw [abs_mul, abs_of_pos hl.1.1]
    have := abs_ediv_le d1
    rw [abs_of_pos hk] at this
    exact mul_le_mul hl.den_le this (abs_nonneg _) hl.2.1.le
  have hpos : 0 < l.den * (k / (Int.gcd k l.num : ℤ)) := mul_pos hl.1.1 (Int.ediv_pos_of_pos_of_dvd hk hg.le d1)
  have htot : ∃ s, divInt c l k = .ok s := by
    simp only [divInt, assert_tot (c := c) hk.ne', den_tot hl.1.1, Out.ok_bind, if_neg (not_lt.2 hk.le), one_mul,
      gcd_tot hc hk' wl.1, mul_tot (c := c) (a := 1) (b := l.num) hc (by simpa using wl.1),
      mul_tot (c := c) (a := 1) (b := l.den) hc (by simpa using wl.2),
      div_tot hc d1 hg.ne' hk', div_tot hc d2 hg.ne' wl.1, mul_tot hc hd']
    exact make_tot hc hpos ((abs_ediv_le d2).trans wl.1) ((le_abs_self _).trans hd')
  obtain ⟨s, hs⟩ := htot
  obtain ⟨g1, g2⟩ := divInt_ok hl.1 hk.ne' hs
  refine ⟨s, hs, g1, mul_pos hl.2.1 hk, ?_⟩
  rw [g2, hl.2.2]; push_cast; rw [div_div]

theorem addInt_rep {l : Rational} {k m D M : ℤ} (hl : Rep l m D) (hc : Holds c M)
    (hD : D ≤ M) (hk : |D * k| ≤ M) (hr : |m + D * k| ≤ M) : ∃ s, addInt c l k = .ok s ∧ Rep s (m + D * k) D := by
  obtain ⟨e, e0, e1, e2⟩ := hl.split
  have h1 : |l.den * k| ≤ M := by
    refine le_trans ?_ hk
    rw [e1, show l.den * e * k = l.den * k * e by ring]
    exact abs_le_abs_mul_pos e0
  have h2 : |l.num + l.den * k| ≤ M := by
    refine le_trans ?_ hr
    rw [e1, e2, show l.num * e + l.den * e * k = (l.num + l.den * k) * e by ring]
    exact abs_le_abs_mul_pos e0
  have htot : ∃ s, addInt c l k = .ok s := by
    simp only [addInt, den_tot hl.1.1, Out.ok_bind, mul_tot hc h1, add_tot hc h2]
    exact make_tot hc hl.1.1 h2 (hl.den_le.trans hD)
  obtain ⟨s, hs⟩ := htot
  obtain ⟨g1, g2⟩ := addInt_ok hl.1 hs
  refine ⟨s, hs, g1, hl.2.1, ?_⟩
  have b : (D : ℚ) ≠ 0 := by exact_mod_cast hl.2.1.ne'
  rw [g2, hl.2.2]; push_cast; field_simp

theorem floor_rep {l : Rational} {m D M : ℤ} (hl : Rep l m D) (hm0 : 0 ≤ m) (hc : Holds c M) (hm : m ≤ M) :
    floor c l = .ok (m / D) := by
  obtain ⟨e, e0, e1, e2⟩ := hl.split
  have hn : 0 ≤ l.num := by
    rw [e2] at hm0
    exact nonneg_of_mul_nonneg_left hm0 e0
  have hq : m / D = l.num / l.den := by
    rw [e1, e2]; exact Int.mul_ediv_mul_of_pos_left _ _ e0
  have hle : l.num ≤ M := by
    have := hl.num_le
    rw [abs_of_nonneg hn, abs_of_nonneg hm0] at this
    omega
  have hq0 : 0 ≤ l.num / l.den := Int.ediv_nonneg hn hl.1.1.le
  have hq1 : l.num / l.den ≤ l.num := Int.ediv_le_self _ hn
  simp only [floor, den_tot hl.1.1, Out.ok_bind]
  rw [idiv_ok, Int.tdiv_eq_ediv_of_nonneg hn, hq]
  exact ⟨hl.1.1.ne', hc.inR (by rw [abs_of_nonneg hq0]; omega), rfl⟩

theorem frac_rep {l : Rational} {m D M : ℤ} (hl : Rep l m D) (hm0 : 0 ≤ m) (hc : Holds c M) (hm : m ≤ M) (hD : D ≤ M) :
    ∃ s, frac c l = .ok s ∧ Rep s (m % D) D := by
  obtain ⟨e, e0, e1, e2⟩ := hl.split
  have hn : 0 ≤ l.num := by
    rw [e2] at hm0
    exact nonneg_of_mul_nonneg_left hm0 e0
  have hq : m / D = l.num / l.den := by
    rw [e1, e2]; exact Int.mul_ediv_mul_of_pos_left _ _ e0
  have hle : l.num ≤ M := by
    have := hl.num_le
    rw [abs_of_nonneg hn, abs_of_nonneg hm0] at this
    omega
  have h1 := Int.emod_add_mul_ediv l.num l.den
  have h2 := Int.emod_nonneg l.num hl.1.1.ne'
  have h3 := Int.emod_lt_of_pos l.num hl.1.1
  have hq0 : 0 ≤ l.num / l.den := Int.ediv_nonneg hn hl.1.1.le
  have hmul0 : 0 ≤ l.den * (l.num / l.den) := mul_nonneg hl.1.1.le hq0
  have b1 : |l.den * (l.num / l.den)| ≤ M := by rw [abs_of_nonneg hmul0]; omega
  have b2 : |l.num - l.den * (l.num / l.den)| ≤ M := by rw [abs_of_nonneg (by omega)]; omega
  have htot : ∃ s, subInt c l (m / D) = .ok s := by
    rw [hq]
    simp only [subInt, den_tot hl.1.1, Out.ok_bind, mul_tot hc b1, sub_tot hc b2]
    exact make_tot hc hl.1.1 b2 (hl.den_le.trans hD)
  obtain ⟨s, hs⟩ := htot
  obtain ⟨g1, g2⟩ := subInt_ok hl.1 hs
  refine ⟨s, ?_, g1, hl.2.1, ?_⟩
  · simp only [frac, floor_rep hl hm0 hc hm, Out.ok_bind, hs]
  · have b : (D : ℚ) ≠ 0 := by exact_mod_cast hl.2.1.ne'
    rw [g2, hl.2.2, Int.emod_def]
    push_cast
    field_simp

end Rational
end Verif
