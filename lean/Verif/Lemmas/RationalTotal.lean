import Verif.Lemmas.Rational
import Mathlib.Algebra.Order.Floor.Ring
import Mathlib.Data.Rat.Floor

/-! Absence of overflow in the `Rational` model, and rounding. -/

namespace Verif
namespace Rational
variable {c : ICfg}

/-- All members of `r` have magnitude at most `B`. -/
def Within (B : ℤ) (r : Rational) : Prop := |r.num| ≤ B ∧ |r.den| ≤ B

/-- The type can hold everything of magnitude up to `M`. -/
def Holds (c : ICfg) (M : ℤ) : Prop := c.lo ≤ -M ∧ M ≤ c.hi

theorem Holds.inR {M x : ℤ} (h : Holds c M) (hx : |x| ≤ M) : c.InR x := by
  rw [abs_le] at hx; unfold ICfg.InR; unfold Holds at h; omega
theorem Holds.inR_abs {M x : ℤ} (h : Holds c M) (hx : |x| ≤ M) : c.InR |x| :=
  h.inR (by rwa [abs_abs])

theorem abs_ediv_le {x g : ℤ} (hd : g ∣ x) : |x / g| ≤ |x| := by
  obtain ⟨k, rfl⟩ := hd
  by_cases hg : g = 0
  · simp [hg]
  · rw [Int.mul_ediv_cancel_left _ hg, abs_mul]
    have := Int.one_le_abs hg
    nlinarith [abs_nonneg k]

theorem abs_tdiv_le (a b : ℤ) : |a.tdiv b| ≤ |a| := by
  rw [← Int.natCast_natAbs, ← Int.natCast_natAbs a, Int.natAbs_tdiv]
  exact_mod_cast Nat.div_le_self _ _

theorem add_tot {a b M : ℤ} (h : Holds c M) (hx : |a + b| ≤ M) : c.add a b = .ok (a + b) := by
  rw [iadd_ok]; exact ⟨h.inR hx, rfl⟩
theorem sub_tot {a b M : ℤ} (h : Holds c M) (hx : |a - b| ≤ M) : c.sub a b = .ok (a - b) := by
  rw [isub_ok]; exact ⟨h.inR hx, rfl⟩
theorem mul_tot {a b M : ℤ} (h : Holds c M) (hx : |a * b| ≤ M) : c.mul a b = .ok (a * b) := by
  rw [imul_ok]; exact ⟨h.inR hx, rfl⟩
theorem div_tot {a b M : ℤ} (h : Holds c M) (hd : b ∣ a) (hb : b ≠ 0) (hx : |a| ≤ M) :
    c.div a b = .ok (a / b) := by
  rw [idiv_ok, tdiv_of_dvd hd]; exact ⟨hb, h.inR ((abs_ediv_le hd).trans hx), rfl⟩
theorem gcd_tot {a b M : ℤ} (h : Holds c M) (ha : |a| ≤ M) (hb : |b| ≤ M) :
    c.gcd a b = .ok (Int.gcd a b : ℤ) := by
  rw [igcd_ok]; exact ⟨⟨h.inR_abs ha, h.inR_abs hb⟩, rfl⟩
theorem lcm_tot {a b M : ℤ} (h : Holds c M) (ha : |a| ≤ M) (hb : |b| ≤ M)
    (hl : (Int.lcm a b : ℤ) ≤ M) : c.lcm a b = .ok (Int.lcm a b : ℤ) := by
  rw [ilcm_ok]
  exact ⟨⟨h.inR_abs ha, h.inR_abs hb, h.inR (by rw [abs_of_nonneg (by positivity)]; exact hl)⟩, rfl⟩
theorem den_tot {r : Rational} (hr : 0 < r.den) : denominator c r = .ok r.den := by
  rw [denominator_ok]; exact ⟨fun _ => hr, rfl⟩
theorem assert_tot {p : Prop} [Decidable p] (h : p) : c.assert p = .ok () := by
  rw [assert_ok]; exact fun _ => h
theorem make_tot {n d M : ℤ} (h : Holds c M) (hd : 0 < d) (hn : |n| ≤ M) (hd' : d ≤ M) :
    ∃ r, make c n d = .ok r :=
  make_total hd (h.inR_abs hn) (h.inR hn) (h.inR (by rwa [abs_of_pos hd]))
    (h.inR (by simpa using (abs_nonneg n).trans hn))

theorem lcm_le_mul {a b : ℤ} (ha : 0 < a) (hb : 0 < b) : (Int.lcm a b : ℤ) ≤ a * b := by
  refine Int.le_of_dvd (mul_pos ha hb) ?_
  exact Int.coe_lcm_dvd (dvd_mul_right a b) (dvd_mul_left b a)

theorem lcm_div_le {a b : ℤ} (ha : 0 < a) (hb : 0 < b) : (Int.lcm a b : ℤ) / a ≤ b := by
  have := lcm_le_mul ha hb
  exact Int.ediv_le_of_le_mul ha (by rwa [mul_comm])
theorem lcm_div_le' {a b : ℤ} (ha : 0 < a) (hb : 0 < b) : (Int.lcm a b : ℤ) / b ≤ a := by
  have := lcm_le_mul ha hb
  exact Int.ediv_le_of_le_mul hb this
theorem lcm_div_nonneg {a b x : ℤ} (hx : 0 < x) : 0 ≤ (Int.lcm a b : ℤ) / x :=
  Int.ediv_nonneg (by positivity) hx.le

theorem abs_mul_le_of {a b A B : ℤ} (ha : |a| ≤ A) (hb0 : 0 ≤ b) (hb : b ≤ B) : |a * b| ≤ A * B := by
  rw [abs_mul, abs_of_nonneg hb0]
  exact mul_le_mul ha hb hb0 ((abs_nonneg _).trans ha)

theorem common_aux {l r : Rational} (hl : Canon l) (hr : Canon r) {B M : ℤ} (hB : 1 ≤ B)
    (hc : Holds c M) (hM : B * B ≤ M) (wl : Within B l) (wr : Within B r) :
    c.lcm l.den r.den = .ok (Int.lcm l.den r.den : ℤ) ∧
    (Int.lcm l.den r.den : ℤ) ≤ B * B ∧
    c.div (Int.lcm l.den r.den : ℤ) l.den = .ok ((Int.lcm l.den r.den : ℤ) / l.den) ∧
    c.div (Int.lcm l.den r.den : ℤ) r.den = .ok ((Int.lcm l.den r.den : ℤ) / r.den) ∧
    |l.num * ((Int.lcm l.den r.den : ℤ) / l.den)| ≤ B * B ∧
    |r.num * ((Int.lcm l.den r.den : ℤ) / r.den)| ≤ B * B := by
  have hld := abs_of_pos hl.1 ▸ wl.2
  have hrd := abs_of_pos hr.1 ▸ wr.2
  have hlcm := lcm_le_mul hl.1 hr.1
  have hlB : (Int.lcm l.den r.den : ℤ) ≤ B * B := hlcm.trans (by nlinarith [hl.1, hr.1])
  have hBM : B ≤ M := by nlinarith
  have habs : |(Int.lcm l.den r.den : ℤ)| ≤ M := by
    rw [abs_of_nonneg (by positivity)]; omega
  refine ⟨lcm_tot hc (wl.2.trans hBM) (wr.2.trans hBM) (by omega), hlB,
    div_tot hc (Int.dvd_lcm_left ..) hl.1.ne' habs, div_tot hc (Int.dvd_lcm_right ..) hr.1.ne' habs,
    abs_mul_le_of wl.1 (lcm_div_nonneg hl.1) ((lcm_div_le hl.1 hr.1).trans hrd),
    abs_mul_le_of wr.1 (lcm_div_nonneg hr.1) ((lcm_div_le' hl.1 hr.1).trans hld)⟩

theorem common_total {l r : Rational} (hl : Canon l) (hr : Canon r) {B M : ℤ} (hB : 1 ≤ B)
    (hc : Holds c M) (hM : B * B ≤ M) (wl : Within B l) (wr : Within B r) :
    ∃ p, commonNumerators c l r = .ok p := by
  obtain ⟨h1, h2, h3, h4, h5, h6⟩ := common_aux hl hr hB hc hM wl wr
  simp only [commonNumerators, den_tot hl.1, den_tot hr.1, Out.ok_bind, h1, h3, h4,
    mul_tot hc (h5.trans hM), mul_tot hc (h6.trans hM), Out.pure_def]
  exact ⟨_, rfl⟩

theorem add_total {l r : Rational} (hl : Canon l) (hr : Canon r) {B M : ℤ} (hB : 1 ≤ B)
    (hc : Holds c M) (hM : 2 * (B * B) ≤ M) (wl : Within B l) (wr : Within B r) :
    ∃ s, add c l r = .ok s := by
  have hBB : 0 ≤ B * B := by positivity
  obtain ⟨h1, h2, h3, h4, h5, h6⟩ := common_aux hl hr hB hc (by omega) wl wr
  have hs := abs_add_le (l.num * ((Int.lcm l.den r.den : ℤ) / l.den))
    (r.num * ((Int.lcm l.den r.den : ℤ) / r.den))
  simp only [add, den_tot hl.1, den_tot hr.1, Out.ok_bind, h1, h3, h4,
    mul_tot hc (h5.trans (by omega)), mul_tot hc (h6.trans (by omega)),
    add_tot hc (hs.trans (by omega))]
  have hp := lcm_pos' hl.1 hr.1
  have hs' := hs.trans (show _ ≤ M by omega)
  generalize (l.num * ((Int.lcm l.den r.den : ℤ) / l.den)) +
    (r.num * ((Int.lcm l.den r.den : ℤ) / r.den)) = n at *
  generalize (Int.lcm l.den r.den : ℤ) = d at *
  have hdM : |d| ≤ M := by rw [abs_of_pos hp]; omega
  have hg := gcd_pos_right' n hp
  simp only [gcd_tot hc hs' hdM, Out.ok_bind, div_tot hc (Int.gcd_dvd_left ..) hg.ne' hs',
    div_tot hc (Int.gcd_dvd_right ..) hg.ne' hdM]
  refine make_tot hc (Int.ediv_pos_of_pos_of_dvd hp hg.le (Int.gcd_dvd_right ..))
    ((abs_ediv_le (Int.gcd_dvd_left ..)).trans hs') ?_
  exact (Int.ediv_le_self _ hp.le).trans (by omega)

theorem sub_total {l r : Rational} (hl : Canon l) (hr : Canon r) {B M : ℤ} (hB : 1 ≤ B)
    (hc : Holds c M) (hM : 2 * (B * B) ≤ M) (wl : Within B l) (wr : Within B r) :
    ∃ s, sub c l r = .ok s := by
  have hBB : 0 ≤ B * B := by positivity
  obtain ⟨h1, h2, h3, h4, h5, h6⟩ := common_aux hl hr hB hc (by omega) wl wr
  have hs := abs_sub (l.num * ((Int.lcm l.den r.den : ℤ) / l.den))
    (r.num * ((Int.lcm l.den r.den : ℤ) / r.den))
  simp only [sub, den_tot hl.1, den_tot hr.1, Out.ok_bind, h1, h3, h4,
    mul_tot hc (h5.trans (by omega)), mul_tot hc (h6.trans (by omega)),
    sub_tot hc (hs.trans (by omega))]
  have hp := lcm_pos' hl.1 hr.1
  have hs' := hs.trans (show _ ≤ M by omega)
  generalize (l.num * ((Int.lcm l.den r.den : ℤ) / l.den)) -
    (r.num * ((Int.lcm l.den r.den : ℤ) / r.den)) = n at *
  generalize (Int.lcm l.den r.den : ℤ) = d at *
  have hdM : |d| ≤ M := by rw [abs_of_pos hp]; omega
  have hg := gcd_pos_right' n hp
  simp only [gcd_tot hc hs' hdM, Out.ok_bind, div_tot hc (Int.gcd_dvd_left ..) hg.ne' hs',
    div_tot hc (Int.gcd_dvd_right ..) hg.ne' hdM]
  refine make_tot hc (Int.ediv_pos_of_pos_of_dvd hp hg.le (Int.gcd_dvd_right ..))
    ((abs_ediv_le (Int.gcd_dvd_left ..)).trans hs') ?_
  exact (Int.ediv_le_self _ hp.le).trans (by omega)

/-- The product succeeds as soon as its operands and its canonical result are representable. -/
theorem mul_total_of_result {l r t : Rational} (hl : Canon l) (hr : Canon r) (ht : Canon t)
    (hv : t.val = l.val * r.val) {M : ℤ} (hc : Holds c M)
    (wl : Within M l) (wr : Within M r) (wt : Within M t) : mul c l r = .ok t := by
  obtain ⟨hpc, hpv⟩ := mul_parts hl hr
  have heq := canon_unique hpc ht (hpv.trans hv.symm)
  have hs₁ := gcd_pos_right' l.num hr.1
  have hs₂ := gcd_pos_right' r.num hl.1
  have e1 : l.num / (Int.gcd l.num r.den : ℤ) * (r.num / (Int.gcd r.num l.den : ℤ)) = t.num :=
    congrArg Rational.num heq
  have e2 : r.den / (Int.gcd l.num r.den : ℤ) * (l.den / (Int.gcd r.num l.den : ℤ)) = t.den :=
    congrArg Rational.den heq
  have key : mul c l r = make c t.num t.den := by
    simp only [mul, den_tot hl.1, den_tot hr.1, Out.ok_bind, gcd_tot hc wl.1 wr.2,
      gcd_tot hc wr.1 wl.2, div_tot hc (Int.gcd_dvd_left ..) hs₁.ne' wl.1,
      div_tot hc (Int.gcd_dvd_left ..) hs₂.ne' wr.1, div_tot hc (Int.gcd_dvd_right ..) hs₁.ne' wr.2,
      div_tot hc (Int.gcd_dvd_right ..) hs₂.ne' wl.2,
      mul_tot hc (show |l.num / (Int.gcd l.num r.den : ℤ) * (r.num / (Int.gcd r.num l.den : ℤ))| ≤ M
        by rw [e1]; exact wt.1),
      mul_tot hc (show |r.den / (Int.gcd l.num r.den : ℤ) * (l.den / (Int.gcd r.num l.den : ℤ))| ≤ M
        by rw [e2]; exact wt.2), e1, e2]
  obtain ⟨s, hs⟩ := make_tot (c := c) hc ht.1 wt.1 (by have := wt.2; rwa [abs_of_pos ht.1] at this)
  have hs' := make_ok ht.1 hs
  rw [key, hs, canon_unique hs'.1 ht hs'.2]

theorem mul_total {l r : Rational} (hl : Canon l) (hr : Canon r) {B M : ℤ} (hB : 1 ≤ B)
    (hc : Holds c M) (hM : B * B ≤ M) (wl : Within B l) (wr : Within B r) :
    ∃ s, mul c l r = .ok s := by
  obtain ⟨hpc, hpv⟩ := mul_parts hl hr
  have hBM : B ≤ M := by nlinarith
  refine ⟨_, mul_total_of_result hl hr hpc hpv hc ⟨wl.1.trans hBM, wl.2.trans hBM⟩
    ⟨wr.1.trans hBM, wr.2.trans hBM⟩ ⟨?_, ?_⟩⟩
  · simp only [abs_mul]
    exact (mul_le_mul ((abs_ediv_le (Int.gcd_dvd_left ..)).trans wl.1)
      ((abs_ediv_le (Int.gcd_dvd_left ..)).trans wr.1) (abs_nonneg _) (by omega)).trans hM
  · simp only [abs_mul]
    exact (mul_le_mul ((abs_ediv_le (Int.gcd_dvd_right ..)).trans wr.2)
      ((abs_ediv_le (Int.gcd_dvd_right ..)).trans wl.2) (abs_nonneg _) (by omega)).trans hM

theorem div_total {l r : Rational} (hl : Canon l) (hr : Canon r) (hz : r.num ≠ 0) {B M : ℤ}
    (hB : 1 ≤ B) (hc : Holds c M) (hM : B * B ≤ M) (wl : Within B l) (wr : Within B r) :
    ∃ s, div c l r = .ok s := by
  have hBM : B ≤ M := by nlinarith
  have e1 : |(if r.num < 0 then -1 else 1) * r.den| = |r.den| := by split <;> simp
  have e2 : |(if r.num < 0 then -1 else 1) * r.num| = |r.num| := by split <;> simp
  have hpos : 0 < (if r.num < 0 then -1 else 1) * r.num := by split <;> omega
  have hcop : Canon ⟨(if r.num < 0 then -1 else 1) * r.den, (if r.num < 0 then -1 else 1) * r.num⟩ := by
    refine ⟨hpos, ?_⟩
    have := hr.2
    rw [Int.gcd_comm] at this
    dsimp only
    split <;> simpa using this
  simp only [div, assert_tot (c := c) hz, Out.ok_bind, den_tot hr.1,
    mul_tot hc (show |(if r.num < 0 then -1 else 1) * r.den| ≤ M by rw [e1]; exact wr.2.trans hBM),
    mul_tot hc (show |(if r.num < 0 then -1 else 1) * r.num| ≤ M by rw [e2]; exact wr.1.trans hBM)]
  obtain ⟨s, hs⟩ := make_tot hc hpos
    (show |(if r.num < 0 then -1 else 1) * r.den| ≤ M by rw [e1]; exact wr.2.trans hBM)
    (by rw [← abs_of_pos hpos, e2]; exact wr.1.trans hBM)
  have hs' := make_ok hpos hs
  have hse := canon_unique hs'.1 hcop hs'.2
  rw [hs, Out.ok_bind, hse]
  exact mul_total hl hcop hB hc hM wl ⟨by dsimp only; rw [e1]; exact wr.2,
    by dsimp only; rw [e2]; exact wr.1⟩

theorem addInt_total {l : Rational} {k : ℤ} (hl : Canon l) {B M : ℤ} (hB : 1 ≤ B) (hc : Holds c M)
    (hM : 2 * (B * B) ≤ M) (wl : Within B l) (hk : |k| ≤ B) : ∃ s, addInt c l k = .ok s := by
  have hBB : B ≤ B * B := by nlinarith
  have h1 : |l.den * k| ≤ B * B := by
    rw [abs_mul]; exact mul_le_mul wl.2 hk (abs_nonneg _) (by omega)
  have h2 := abs_add_le l.num (l.den * k)
  have := wl.1
  simp only [addInt, den_tot hl.1, Out.ok_bind, mul_tot hc (h1.trans (by omega)),
    add_tot hc (h2.trans (by omega))]
  exact make_tot hc hl.1 (h2.trans (by omega)) ((le_abs_self _).trans (wl.2.trans (by omega)))

theorem subInt_total {l : Rational} {k : ℤ} (hl : Canon l) {B M : ℤ} (hB : 1 ≤ B) (hc : Holds c M)
    (hM : 2 * (B * B) ≤ M) (wl : Within B l) (hk : |k| ≤ B) : ∃ s, subInt c l k = .ok s := by
  have hBB : B ≤ B * B := by nlinarith
  have h1 : |l.den * k| ≤ B * B := by
    rw [abs_mul]; exact mul_le_mul wl.2 hk (abs_nonneg _) (by omega)
  have h2 := abs_sub l.num (l.den * k)
  have := wl.1
  simp only [subInt, den_tot hl.1, Out.ok_bind, mul_tot hc (h1.trans (by omega)),
    sub_tot hc (h2.trans (by omega))]
  exact make_tot hc hl.1 (h2.trans (by omega)) ((le_abs_self _).trans (wl.2.trans (by omega)))

theorem mulInt_total {l : Rational} {k : ℤ} (hl : Canon l) (hk0 : 0 ≤ k) {B M : ℤ} (hB : 1 ≤ B)
    (hc : Holds c M) (hM : B * B ≤ M) (wl : Within B l) (hk : |k| ≤ B) :
    ∃ s, mulInt c l k = .ok s := by
  have hBM : B ≤ M := by nlinarith
  have hg := gcd_pos_right' k hl.1
  have d1 : (Int.gcd k l.den : ℤ) ∣ k := Int.gcd_dvd_left ..
  have d2 : (Int.gcd k l.den : ℤ) ∣ l.den := Int.gcd_dvd_right ..
  have hn : |l.num * (k / (Int.gcd k l.den : ℤ))| ≤ M := by
    rw [abs_mul]
    exact (mul_le_mul wl.1 ((abs_ediv_le d1).trans hk) (abs_nonneg _) (by omega)).trans hM
  simp only [mulInt, den_tot hl.1, Out.ok_bind, gcd_tot hc (hk.trans hBM) (wl.2.trans hBM),
    if_neg (not_lt.2 hk0), one_mul, div_tot hc d1 hg.ne' (hk.trans hBM),
    mul_tot (c := c) (a := 1) hc (by simpa using wl.1.trans hBM),
    mul_tot (c := c) (a := 1) (b := l.den) hc (by simpa using wl.2.trans hBM), mul_tot hc hn,
    div_tot hc d2 hg.ne' (wl.2.trans hBM)]
  exact make_tot hc (Int.ediv_pos_of_pos_of_dvd hl.1 hg.le d2) hn
    ((Int.ediv_le_self _ hl.1.le).trans ((le_abs_self _).trans (wl.2.trans hBM)))

theorem divInt_total {l : Rational} {k : ℤ} (hl : Canon l) (hk0 : k ≠ 0) {B M : ℤ} (hB : 1 ≤ B)
    (hc : Holds c M) (hM : B * B ≤ M) (wl : Within B l) (hk : |k| ≤ B) :
    ∃ s, divInt c l k = .ok s := by
  have hBM : B ≤ M := by nlinarith
  have hg : (0 : ℤ) < (Int.gcd k l.num : ℤ) := by
    exact_mod_cast Int.gcd_pos_of_ne_zero_left _ hk0
  have d1 : (Int.gcd k l.num : ℤ) ∣ k := Int.gcd_dvd_left ..
  have d2 : (Int.gcd k l.num : ℤ) ∣ l.num := Int.gcd_dvd_right ..
  obtain ⟨σ, hσ, hσ1, hσk⟩ : ∃ σ : ℤ, (if k < 0 then (-1 : ℤ) else 1) = σ ∧ |σ| = 1 ∧ 0 < σ * k := by
    refine ⟨_, rfl, ?_, ?_⟩
    · split <;> simp
    · split <;> omega
  have hsn : |σ * l.num| ≤ M := by rw [abs_mul, hσ1, one_mul]; exact wl.1.trans hBM
  have hsd : |σ * l.den| ≤ M := by rw [abs_mul, hσ1, one_mul]; exact wl.2.trans hBM
  have hd' : |σ * l.den * (k / (Int.gcd k l.num : ℤ))| ≤ M := by
    rw [abs_mul, abs_mul, hσ1, one_mul]
    exact (mul_le_mul wl.2 ((abs_ediv_le d1).trans hk) (abs_nonneg _) (by omega)).trans hM
  have hpos : 0 < σ * l.den * (k / (Int.gcd k l.num : ℤ)) := by
    have : σ * l.den * (k / (Int.gcd k l.num : ℤ)) = l.den * (σ * k / (Int.gcd k l.num : ℤ)) := by
      rw [Int.mul_ediv_assoc _ d1]; ring
    rw [this]
    exact mul_pos hl.1 (Int.ediv_pos_of_pos_of_dvd hσk hg.le (d1.mul_left _))
  simp only [divInt, assert_tot (c := c) hk0, den_tot hl.1, Out.ok_bind, hσ,
    gcd_tot hc (hk.trans hBM) (wl.1.trans hBM), mul_tot hc hsn, mul_tot hc hsd,
    div_tot hc d1 hg.ne' (hk.trans hBM), div_tot hc (d2.mul_left σ) hg.ne' hsn, mul_tot hc hd']
  exact make_tot hc hpos ((abs_ediv_le (d2.mul_left σ)).trans hsn) ((le_abs_self _).trans hd')

theorem floor_ok {r : Rational} {k : ℤ} (_ : Canon r) (h : floor c r = .ok k) :
    k = r.num.tdiv r.den := by
  simp only [floor, Out.bind_eq_ok, denominator_ok, idiv_ok] at h
  obtain ⟨_, ⟨_, rfl⟩, _, _, rfl⟩ := h
  rfl

theorem ceil_ok {r : Rational} {k : ℤ} (_ : Canon r) (h : ceil c r = .ok k) :
    k = (r.num + r.den - 1).tdiv r.den := by
  simp only [ceil, Out.bind_eq_ok, denominator_ok, idiv_ok, iadd_ok, isub_ok] at h
  obtain ⟨_, ⟨_, rfl⟩, _, ⟨_, rfl⟩, _, ⟨_, rfl⟩, _, ⟨_, rfl⟩, _, _, rfl⟩ := h
  rfl

theorem val_floor (r : Rational) (hr : Canon r) : ⌊r.val⌋ = r.num / r.den := by
  obtain ⟨n, hn⟩ := Int.eq_ofNat_of_zero_le hr.1.le
  unfold val
  rw [hn, Int.cast_natCast, Rat.floor_intCast_div_natCast]

theorem val_ceil (r : Rational) (hr : Canon r) : ⌈r.val⌉ = -((-r.num) / r.den) := by
  obtain ⟨n, hn⟩ := Int.eq_ofNat_of_zero_le hr.1.le
  unfold val
  rw [hn, Int.cast_natCast, Rat.ceil_intCast_div_natCast]

theorem floor_right_iff {r : Rational} (hr : Canon r) :
    r.num.tdiv r.den = ⌊r.val⌋ ↔ 0 ≤ r.num ∨ r.den = 1 := by
  rw [val_floor r hr]
  have hd := hr.1
  constructor
  · intro h
    by_contra hcon
    have hn : r.num < 0 := by omega
    have hd1 : r.den ≠ 1 := by omega
    have hnd : ¬ r.den ∣ r.num := by
      intro hdv
      have h1 : r.den ∣ (Int.gcd r.num r.den : ℤ) := Int.dvd_coe_gcd hdv dvd_rfl
      rw [hr.2] at h1
      have := Int.le_of_dvd (by norm_num) h1
      push_cast at this
      omega
    rw [Int.tdiv_eq_ediv, if_neg (by push Not; exact ⟨hn, hnd⟩), Int.sign_eq_one_of_pos hd] at h
    omega
  · rintro (h | h)
    · exact Int.tdiv_eq_ediv_of_nonneg h
    · rw [h]; simp

theorem ceil_right_iff {r : Rational} (hr : Canon r) :
    (r.num + r.den - 1).tdiv r.den = ⌈r.val⌉ ↔ -r.den < r.num ∨ r.den ∣ r.num - 1 := by
  rw [val_ceil r hr]
  have hd := hr.1
  set n := r.num
  set d := r.den
  -- `-((-n)/d) = (n - 1)/d + 1`
  have key : -((-n) / d) = (n + d - 1) / d := by
    have h1 := Int.emod_add_mul_ediv (-n) d
    have h2 := Int.emod_nonneg (-n) hd.ne'
    have h3 := Int.emod_lt_of_pos (-n) hd
    symm
    rw [Int.ediv_eq_iff_of_pos hd]
    constructor <;> nlinarith
  rw [key, Int.tdiv_eq_ediv]
  have hs : d.sign = 1 := Int.sign_eq_one_of_pos hd
  constructor
  · intro h
    by_contra hcon
    push Not at hcon
    rw [if_neg] at h
    · rw [hs] at h; omega
    · push Not
      refine ⟨by omega, fun hdv => hcon.2 ?_⟩
      have : n - 1 = (n + d - 1) - d := by ring
      rw [this]
      exact dvd_sub hdv dvd_rfl
  · rintro (h | h)
    · rw [if_pos (Or.inl (by omega))]; omega
    · rw [if_pos (Or.inr ?_)]
      · omega
      · have : n + d - 1 = (n - 1) + d := by ring
        rw [this]
        exact dvd_add h dvd_rfl

end Rational
end Verif
