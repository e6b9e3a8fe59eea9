import Verif.Model.Rational
import Mathlib.Data.Rat.Defs
import Mathlib.Data.Rat.Lemmas
import Mathlib.Algebra.Order.Field.Rat
import Mathlib.Data.Int.GCD
import Mathlib.RingTheory.Coprime.Lemmas
import Mathlib.Data.Int.Order.Basic
import Mathlib.Tactic.FieldSimp
import Mathlib.Tactic.Ring
import Mathlib.Tactic.Linarith
import Mathlib.Tactic.Positivity
import Mathlib.Tactic.NormNum

/-! Helper lemmas about the `Rational` model. -/

namespace Verif
namespace Rational

/-- Canonical form: positive denominator, coprime members. -/
def Canon (r : Rational) : Prop := 0 < r.den ∧ Int.gcd r.num r.den = 1

/-- The number denoted by a rational. -/
def val (r : Rational) : ℚ := (r.num : ℚ) / (r.den : ℚ)

variable {c : ICfg}

@[simp] theorem chk_ok {x y : ℤ} : c.chk x = .ok y ↔ c.InR x ∧ y = x := by
  unfold ICfg.chk; split <;> simp_all [eq_comm]
@[simp] theorem iadd_ok {a b y : ℤ} : c.add a b = .ok y ↔ c.InR (a + b) ∧ y = a + b := by
  simp [ICfg.add]
@[simp] theorem isub_ok {a b y : ℤ} : c.sub a b = .ok y ↔ c.InR (a - b) ∧ y = a - b := by
  simp [ICfg.sub]
@[simp] theorem imul_ok {a b y : ℤ} : c.mul a b = .ok y ↔ c.InR (a * b) ∧ y = a * b := by
  simp [ICfg.mul]
@[simp] theorem idiv_ok {a b y : ℤ} :
    c.div a b = .ok y ↔ b ≠ 0 ∧ c.InR (a.tdiv b) ∧ y = a.tdiv b := by
  unfold ICfg.div; split <;> simp_all
@[simp] theorem igcd_ok {a b y : ℤ} :
    c.gcd a b = .ok y ↔ (c.InR |a| ∧ c.InR |b|) ∧ y = (Int.gcd a b : ℤ) := by
  unfold ICfg.gcd; split <;> simp_all [eq_comm]
@[simp] theorem ilcm_ok {a b y : ℤ} :
    c.lcm a b = .ok y ↔ (c.InR |a| ∧ c.InR |b| ∧ c.InR (Int.lcm a b : ℤ)) ∧
      y = (Int.lcm a b : ℤ) := by
  unfold ICfg.lcm; split <;> simp_all [eq_comm]
@[simp] theorem assert_ok {p : Prop} [Decidable p] {u : Unit} :
    c.assert p = .ok u ↔ (c.asserts = true → p) := by
  unfold ICfg.assert; split <;> simp_all
@[simp] theorem denominator_ok {r : Rational} {y : ℤ} :
    denominator c r = .ok y ↔ (c.asserts = true → 0 < r.den) ∧ y = r.den := by
  simp only [denominator, Out.bind_eq_ok, assert_ok, Out.pure_def]
  constructor
  · rintro ⟨_, h, e⟩
    injection e with e
    exact ⟨h, e.symm⟩
  · rintro ⟨h, rfl⟩
    exact ⟨(), h, rfl⟩

theorem tdiv_of_dvd {a g : ℤ} (h : g ∣ a) : a.tdiv g = a / g := by
  rw [Int.tdiv_eq_ediv_of_dvd h]

theorem make_ok {n d : ℤ} {r : Rational} (hd : 0 < d) :
    make c n d = .ok r → Canon r ∧ r.val = (n : ℚ) / d := by
  intro h
  simp only [make, Out.bind_eq_ok, assert_ok, igcd_ok, idiv_ok, Out.pure_def] at h
  obtain ⟨_, _, g, ⟨_, rfl⟩, a, ⟨hg, _, rfl⟩, _, _, g2, ⟨_, rfl⟩, b, ⟨_, _, rfl⟩, h⟩ := h
  injection h with h
  subst h
  have hgn : (Int.gcd n d : ℤ) ∣ n := Int.gcd_dvd_left ..
  have hgd : (Int.gcd n d : ℤ) ∣ d := Int.gcd_dvd_right ..
  have hpos : 0 < Int.gcd n d := Int.gcd_pos_of_ne_zero_right _ hd.ne'
  have hposz : (0 : ℤ) < (Int.gcd n d : ℤ) := by exact_mod_cast hpos
  rw [tdiv_of_dvd hgn, tdiv_of_dvd hgd]
  refine ⟨⟨?_, ?_⟩, ?_⟩
  · exact Int.ediv_pos_of_pos_of_dvd hd hposz.le hgd
  · exact Int.gcd_div_gcd_div_gcd hpos
  · unfold val
    simp only
    have hgq : ((Int.gcd n d : ℤ) : ℚ) ≠ 0 := by exact_mod_cast hpos.ne'
    rw [Int.cast_div hgn hgq, Int.cast_div hgd hgq]
    rw [div_div_div_cancel_right₀ hgq]

/-- When the constructor succeeds (no overflow). -/
theorem make_total {n d : ℤ} (hd : 0 < d) (hn : c.InR |n|) (hn' : c.InR n) (hd' : c.InR d)
    (h0 : c.InR 0) : ∃ r, make c n d = .ok r := by
  have hgn : (Int.gcd n d : ℤ) ∣ n := Int.gcd_dvd_left ..
  have hgd : (Int.gcd n d : ℤ) ∣ d := Int.gcd_dvd_right ..
  have hpos : 0 < Int.gcd n d := Int.gcd_pos_of_ne_zero_right _ hd.ne'
  have hposz : (0 : ℤ) < (Int.gcd n d : ℤ) := by exact_mod_cast hpos
  have hq : ∀ x : ℤ, c.InR |x| → c.InR x → c.InR (x / (Int.gcd n d : ℤ)) ∨ ¬ ((Int.gcd n d : ℤ) ∣ x) := by
    intro x hx hx'
    by_cases hdv : (Int.gcd n d : ℤ) ∣ x
    · left
      obtain ⟨k, rfl⟩ := hdv
      rw [Int.mul_ediv_cancel_left _ hposz.ne']
      unfold ICfg.InR at *
      generalize (Int.gcd n d : ℤ) = g at *
      rcases le_total 0 k with hk | hk
      · constructor
        · linarith [h0.1]
        · nlinarith [hx'.2]
      · constructor
        · nlinarith [hx'.1]
        · linarith [h0.2]
    · exact Or.inr hdv
  have h1 : c.InR (n / (Int.gcd n d : ℤ)) := (hq n hn hn').resolve_right (by simpa using hgn)
  have h2 : c.InR (d / (Int.gcd n d : ℤ)) :=
    (hq d (by rwa [abs_of_pos hd]) hd').resolve_right (by simpa using hgd)
  refine ⟨⟨n / (Int.gcd n d : ℤ), d / (Int.gcd n d : ℤ)⟩, ?_⟩
  have ha : c.assert (0 < d) = .ok () := by simp [hd]
  have hg : c.gcd n d = .ok (Int.gcd n d : ℤ) := by
    rw [igcd_ok]; exact ⟨⟨hn, by rwa [abs_of_pos hd]⟩, rfl⟩
  have hd1 : c.div n (Int.gcd n d : ℤ) = .ok (n / (Int.gcd n d : ℤ)) := by
    rw [idiv_ok, tdiv_of_dvd hgn]; exact ⟨hposz.ne', h1, rfl⟩
  have hd2 : c.div d (Int.gcd n d : ℤ) = .ok (d / (Int.gcd n d : ℤ)) := by
    rw [idiv_ok, tdiv_of_dvd hgd]; exact ⟨hposz.ne', h2, rfl⟩
  simp [make, ha, hg, hd1, hd2]

theorem addInt_ok {l : Rational} {k : ℤ} {r : Rational} (hl : Canon l) (h : addInt c l k = .ok r) :
    Canon r ∧ r.val = l.val + k := by
  simp only [addInt, Out.bind_eq_ok, denominator_ok, imul_ok, iadd_ok] at h
  obtain ⟨_, ⟨_, rfl⟩, _, ⟨_, rfl⟩, _, ⟨_, rfl⟩, h⟩ := h
  obtain ⟨hc, hv⟩ := make_ok hl.1 h
  refine ⟨hc, hv.trans ?_⟩
  have : (l.den : ℚ) ≠ 0 := by exact_mod_cast hl.1.ne'
  unfold val; push_cast; field_simp

theorem subInt_ok {l : Rational} {k : ℤ} {r : Rational} (hl : Canon l) (h : subInt c l k = .ok r) :
    Canon r ∧ r.val = l.val - k := by
  simp only [subInt, Out.bind_eq_ok, denominator_ok, imul_ok, isub_ok] at h
  obtain ⟨_, ⟨_, rfl⟩, _, ⟨_, rfl⟩, _, ⟨_, rfl⟩, h⟩ := h
  obtain ⟨hc, hv⟩ := make_ok hl.1 h
  refine ⟨hc, hv.trans ?_⟩
  have : (l.den : ℚ) ≠ 0 := by exact_mod_cast hl.1.ne'
  unfold val; push_cast; field_simp

theorem mulInt_ok {l : Rational} {k : ℤ} {r : Rational} (hl : Canon l)
    (hk : c.asserts = true ∨ 0 ≤ k) (h : mulInt c l k = .ok r) :
    Canon r ∧ r.val = l.val * k := by
  simp only [mulInt, Out.bind_eq_ok, denominator_ok, imul_ok, igcd_ok, idiv_ok] at h
  obtain ⟨_, ⟨_, rfl⟩, g, ⟨_, rfl⟩, _, ⟨_, rfl⟩, _, ⟨hg, _, rfl⟩, _, ⟨_, rfl⟩, _, ⟨_, rfl⟩, _,
    ⟨_, _, rfl⟩, h⟩ := h
  have hgk : (Int.gcd k l.den : ℤ) ∣ k := Int.gcd_dvd_left ..
  have hgd : (Int.gcd k l.den : ℤ) ∣ l.den := Int.gcd_dvd_right ..
  have hposz : (0 : ℤ) < (Int.gcd k l.den : ℤ) := by
    exact_mod_cast Int.gcd_pos_of_ne_zero_right _ hl.1.ne'
  have hgq : ((Int.gcd k l.den : ℤ) : ℚ) ≠ 0 := by exact_mod_cast hposz.ne'
  have hdp : 0 < l.den / (Int.gcd k l.den : ℤ) :=
    Int.ediv_pos_of_pos_of_dvd hl.1 hposz.le hgd
  have hden : (l.den : ℚ) ≠ 0 := by exact_mod_cast hl.1.ne'
  by_cases hneg : k < 0
  · -- the denominator passed on is negative: with assertions enabled this cannot succeed
    exfalso
    simp only [if_pos hneg] at h
    rw [tdiv_of_dvd (hgd.mul_left _)] at h
    have : -1 * l.den / (Int.gcd k l.den : ℤ) < 0 := by
      rw [neg_one_mul, Int.neg_ediv_of_dvd hgd]; omega
    simp only [make, Out.bind_eq_ok, assert_ok] at h
    obtain ⟨_, ha, _⟩ := h
    rcases hk with hk | hk
    · have := ha hk; omega
    · omega
  · simp only [if_neg hneg, one_mul] at h
    rw [tdiv_of_dvd hgd, tdiv_of_dvd hgk] at h
    obtain ⟨hc, hv⟩ := make_ok hdp h
    refine ⟨hc, hv.trans ?_⟩
    unfold val
    generalize (Int.gcd k l.den : ℤ) = g at *
    push_cast
    rw [Int.cast_div hgd hgq, Int.cast_div hgk hgq]
    field_simp

theorem divInt_ok {l : Rational} {k : ℤ} {r : Rational} (hl : Canon l) (hk : k ≠ 0)
    (h : divInt c l k = .ok r) : Canon r ∧ r.val = l.val / k := by
  simp only [divInt, Out.bind_eq_ok, denominator_ok, imul_ok, igcd_ok, idiv_ok, assert_ok] at h
  obtain ⟨_, _, _, ⟨_, rfl⟩, _, ⟨_, rfl⟩, _, ⟨hg, _, rfl⟩, _, ⟨_, rfl⟩, _, ⟨_, rfl⟩, _,
    ⟨_, _, rfl⟩, _, ⟨_, rfl⟩, h⟩ := h
  have hgk : (Int.gcd k l.num : ℤ) ∣ k := Int.gcd_dvd_left ..
  have hgn : (Int.gcd k l.num : ℤ) ∣ l.num := Int.gcd_dvd_right ..
  have hposz : (0 : ℤ) < (Int.gcd k l.num : ℤ) := by
    exact_mod_cast Int.gcd_pos_of_ne_zero_left _ hk
  have hgq : ((Int.gcd k l.num : ℤ) : ℚ) ≠ 0 := by exact_mod_cast hposz.ne'
  have hden : (l.den : ℚ) ≠ 0 := by exact_mod_cast hl.1.ne'
  have hkq : (k : ℚ) ≠ 0 := by exact_mod_cast hk
  rw [tdiv_of_dvd (hgn.mul_left _), tdiv_of_dvd hgk] at h
  by_cases hneg : k < 0
  · simp only [if_pos hneg] at h
    have hpos : 0 < -1 * l.den * (k / (Int.gcd k l.num : ℤ)) := by
      have h1 : k / (Int.gcd k l.num : ℤ) < 0 := Int.ediv_neg_of_neg_of_pos hneg hposz
      have := hl.1
      nlinarith
    obtain ⟨hc, hv⟩ := make_ok hpos h
    refine ⟨hc, hv.trans ?_⟩
    unfold val
    generalize (Int.gcd k l.num : ℤ) = g at *
    rw [Int.cast_div (hgn.mul_left _) hgq]
    push_cast
    rw [Int.cast_div hgk hgq]
    field_simp
  · simp only [if_neg hneg, one_mul] at h
    have hpos : 0 < l.den * (k / (Int.gcd k l.num : ℤ)) :=
      mul_pos hl.1 (Int.ediv_pos_of_pos_of_dvd (by omega) hposz.le hgk)
    obtain ⟨hc, hv⟩ := make_ok hpos h
    refine ⟨hc, hv.trans ?_⟩
    unfold val
    generalize (Int.gcd k l.num : ℤ) = g at *
    rw [Int.cast_div hgn hgq]
    push_cast
    rw [Int.cast_div hgk hgq]
    field_simp

theorem lcm_pos' {a b : ℤ} (ha : 0 < a) (hb : 0 < b) : (0 : ℤ) < (Int.lcm a b : ℤ) := by
  have := Int.lcm_pos ha.ne' hb.ne'
  exact_mod_cast this

theorem reduce_ok {n d : ℤ} {r : Rational} (hd : 0 < d)
    (h : make c (n.tdiv (Int.gcd n d : ℤ)) (d.tdiv (Int.gcd n d : ℤ)) = .ok r) :
    Canon r ∧ r.val = (n : ℚ) / d := by
  have hgn : (Int.gcd n d : ℤ) ∣ n := Int.gcd_dvd_left ..
  have hgd : (Int.gcd n d : ℤ) ∣ d := Int.gcd_dvd_right ..
  have hposz : (0 : ℤ) < (Int.gcd n d : ℤ) := by
    exact_mod_cast Int.gcd_pos_of_ne_zero_right _ hd.ne'
  have hgq : ((Int.gcd n d : ℤ) : ℚ) ≠ 0 := by exact_mod_cast hposz.ne'
  rw [tdiv_of_dvd hgn, tdiv_of_dvd hgd] at h
  obtain ⟨hc, hv⟩ := make_ok (Int.ediv_pos_of_pos_of_dvd hd hposz.le hgd) h
  refine ⟨hc, hv.trans ?_⟩
  rw [Int.cast_div hgn hgq, Int.cast_div hgd hgq, div_div_div_cancel_right₀ hgq]

theorem cast_lcm_div {a b : ℤ} (_ : 0 < a) (x : ℤ) (hx : x ∣ (Int.lcm a b : ℤ)) (hx0 : x ≠ 0) :
    ((((Int.lcm a b : ℤ).tdiv x : ℤ)) : ℚ) = ((Int.lcm a b : ℤ) : ℚ) / x := by
  rw [tdiv_of_dvd hx, Int.cast_div hx (by exact_mod_cast hx0)]

theorem add_ok {l r s : Rational} (hl : Canon l) (hr : Canon r) (h : add c l r = .ok s) :
    Canon s ∧ s.val = l.val + r.val := by
  simp only [add, Out.bind_eq_ok, denominator_ok, imul_ok, igcd_ok, idiv_ok, ilcm_ok, iadd_ok] at h
  obtain ⟨_, ⟨_, rfl⟩, _, ⟨_, rfl⟩, _, ⟨_, rfl⟩, _, ⟨_, _, rfl⟩, _, ⟨_, rfl⟩, _, ⟨_, _, rfl⟩, _,
    ⟨_, rfl⟩, _, ⟨_, rfl⟩, _, ⟨_, rfl⟩, _, ⟨_, _, rfl⟩, _, ⟨_, _, rfl⟩, h⟩ := h
  have hlp := lcm_pos' hl.1 hr.1
  obtain ⟨hc, hv⟩ := reduce_ok hlp h
  refine ⟨hc, hv.trans ?_⟩
  have h1 : (l.den : ℚ) ≠ 0 := by exact_mod_cast hl.1.ne'
  have h2 : (r.den : ℚ) ≠ 0 := by exact_mod_cast hr.1.ne'
  have h3 : ((Int.lcm l.den r.den : ℤ) : ℚ) ≠ 0 := by exact_mod_cast hlp.ne'
  unfold val
  rw [Int.cast_add, Int.cast_mul, Int.cast_mul,
    cast_lcm_div hl.1 _ (Int.dvd_lcm_left ..) hl.1.ne',
    cast_lcm_div hl.1 _ (Int.dvd_lcm_right ..) hr.1.ne']
  field_simp

theorem sub_ok {l r s : Rational} (hl : Canon l) (hr : Canon r) (h : sub c l r = .ok s) :
    Canon s ∧ s.val = l.val - r.val := by
  simp only [sub, Out.bind_eq_ok, denominator_ok, imul_ok, igcd_ok, idiv_ok, ilcm_ok, isub_ok] at h
  obtain ⟨_, ⟨_, rfl⟩, _, ⟨_, rfl⟩, _, ⟨_, rfl⟩, _, ⟨_, _, rfl⟩, _, ⟨_, rfl⟩, _, ⟨_, _, rfl⟩, _,
    ⟨_, rfl⟩, _, ⟨_, rfl⟩, _, ⟨_, rfl⟩, _, ⟨_, _, rfl⟩, _, ⟨_, _, rfl⟩, h⟩ := h
  have hlp := lcm_pos' hl.1 hr.1
  obtain ⟨hc, hv⟩ := reduce_ok hlp h
  refine ⟨hc, hv.trans ?_⟩
  have h1 : (l.den : ℚ) ≠ 0 := by exact_mod_cast hl.1.ne'
  have h2 : (r.den : ℚ) ≠ 0 := by exact_mod_cast hr.1.ne'
  have h3 : ((Int.lcm l.den r.den : ℤ) : ℚ) ≠ 0 := by exact_mod_cast hlp.ne'
  unfold val
  rw [Int.cast_sub, Int.cast_mul, Int.cast_mul,
    cast_lcm_div hl.1 _ (Int.dvd_lcm_left ..) hl.1.ne',
    cast_lcm_div hl.1 _ (Int.dvd_lcm_right ..) hr.1.ne']
  field_simp

theorem gcd_pos_right' (a : ℤ) {b : ℤ} (hb : 0 < b) : (0 : ℤ) < (Int.gcd a b : ℤ) := by
  exact_mod_cast Int.gcd_pos_of_ne_zero_right _ hb.ne'

/-- The product before it reaches the constructor: same value, positive denominator, coprime. -/
theorem mul_parts {l r : Rational} (hl : Canon l) (hr : Canon r) :
    let s₁ : ℤ := Int.gcd l.num r.den
    let s₂ : ℤ := Int.gcd r.num l.den
    Canon ⟨l.num / s₁ * (r.num / s₂), r.den / s₁ * (l.den / s₂)⟩ ∧
    val ⟨l.num / s₁ * (r.num / s₂), r.den / s₁ * (l.den / s₂)⟩ = l.val * r.val := by
  intro s₁ s₂
  have hs₁ : 0 < s₁ := gcd_pos_right' _ hr.1
  have hs₂ : 0 < s₂ := gcd_pos_right' _ hl.1
  have a1 : s₁ ∣ l.num := Int.gcd_dvd_left ..
  have a2 : s₁ ∣ r.den := Int.gcd_dvd_right ..
  have b1 : s₂ ∣ r.num := Int.gcd_dvd_left ..
  have b2 : s₂ ∣ l.den := Int.gcd_dvd_right ..
  have c1 : IsCoprime (l.num / s₁) (r.den / s₁) := by
    rw [Int.isCoprime_iff_gcd_eq_one]
    exact Int.gcd_div_gcd_div_gcd (Int.gcd_pos_of_ne_zero_right _ hr.1.ne')
  have c2 : IsCoprime (r.num / s₂) (l.den / s₂) := by
    rw [Int.isCoprime_iff_gcd_eq_one]
    exact Int.gcd_div_gcd_div_gcd (Int.gcd_pos_of_ne_zero_right _ hl.1.ne')
  have c3 : IsCoprime (l.num / s₁) (l.den / s₂) :=
    ((Int.isCoprime_iff_gcd_eq_one.2 hl.2).of_isCoprime_of_dvd_left
      (Int.ediv_dvd_of_dvd a1)).of_isCoprime_of_dvd_right (Int.ediv_dvd_of_dvd b2)
  have c4 : IsCoprime (r.num / s₂) (r.den / s₁) :=
    ((Int.isCoprime_iff_gcd_eq_one.2 hr.2).of_isCoprime_of_dvd_left
      (Int.ediv_dvd_of_dvd b1)).of_isCoprime_of_dvd_right (Int.ediv_dvd_of_dvd a2)
  refine ⟨⟨?_, ?_⟩, ?_⟩
  · exact mul_pos (Int.ediv_pos_of_pos_of_dvd hr.1 hs₁.le a2)
      (Int.ediv_pos_of_pos_of_dvd hl.1 hs₂.le b2)
  · rw [← Int.isCoprime_iff_gcd_eq_one]
    exact (c1.mul_right c3).mul_left (c4.mul_right c2)
  · have h1 : (l.den : ℚ) ≠ 0 := by exact_mod_cast hl.1.ne'
    have h2 : (r.den : ℚ) ≠ 0 := by exact_mod_cast hr.1.ne'
    have h3 : (s₁ : ℚ) ≠ 0 := by exact_mod_cast hs₁.ne'
    have h4 : (s₂ : ℚ) ≠ 0 := by exact_mod_cast hs₂.ne'
    unfold val
    simp only
    rw [Int.cast_mul, Int.cast_mul, Int.cast_div a1 h3, Int.cast_div b1 h4, Int.cast_div a2 h3,
      Int.cast_div b2 h4]
    field_simp

theorem mul_ok {l r s : Rational} (hl : Canon l) (hr : Canon r) (h : mul c l r = .ok s) :
    Canon s ∧ s.val = l.val * r.val := by
  simp only [mul, Out.bind_eq_ok, denominator_ok, imul_ok, igcd_ok, idiv_ok] at h
  obtain ⟨_, ⟨_, rfl⟩, _, ⟨_, rfl⟩, _, ⟨_, rfl⟩, _, ⟨_, rfl⟩, _, ⟨_, _, rfl⟩, _, ⟨_, _, rfl⟩, _,
    ⟨_, rfl⟩, _, ⟨_, _, rfl⟩, _, ⟨_, _, rfl⟩, _, ⟨_, rfl⟩, h⟩ := h
  rw [tdiv_of_dvd (Int.gcd_dvd_left ..), tdiv_of_dvd (Int.gcd_dvd_left ..),
    tdiv_of_dvd (Int.gcd_dvd_right ..), tdiv_of_dvd (Int.gcd_dvd_right ..)] at h
  obtain ⟨hc, hv⟩ := mul_parts hl hr
  obtain ⟨hc', hv'⟩ := make_ok hc.1 h
  exact ⟨hc', hv'.trans hv⟩

theorem val_ne_zero {r : Rational} (hr : Canon r) : r.val ≠ 0 ↔ r.num ≠ 0 := by
  have h2 : (r.den : ℚ) ≠ 0 := by exact_mod_cast hr.1.ne'
  simp [val, h2]

theorem div_ok {l r s : Rational} (hl : Canon l) (hr : Canon r) (hz : r.num ≠ 0)
    (h : div c l r = .ok s) : Canon s ∧ s.val = l.val / r.val := by
  simp only [div, Out.bind_eq_ok, denominator_ok, imul_ok, assert_ok] at h
  obtain ⟨_, _, _, ⟨_, rfl⟩, _, ⟨_, rfl⟩, _, ⟨_, rfl⟩, inv, hi, h⟩ := h
  have hpos : 0 < (if r.num < 0 then -1 else 1) * r.num := by
    split <;> omega
  obtain ⟨hci, hvi⟩ := make_ok hpos hi
  obtain ⟨hc, hv⟩ := mul_ok hl hci h
  refine ⟨hc, hv.trans ?_⟩
  rw [hvi]
  have h1 : (l.den : ℚ) ≠ 0 := by exact_mod_cast hl.1.ne'
  have h2 : (r.den : ℚ) ≠ 0 := by exact_mod_cast hr.1.ne'
  have h3 : (r.num : ℚ) ≠ 0 := by exact_mod_cast hz
  unfold val
  split
  · push_cast; field_simp
  · push_cast; field_simp

theorem inc_ok {r s : Rational} (hr : Canon r) (h : inc c r = .ok s) :
    Canon s ∧ s.val = r.val + 1 := by
  simp only [inc, Out.bind_eq_ok, iadd_ok, Out.pure_def] at h
  obtain ⟨_, ⟨_, rfl⟩, h⟩ := h
  injection h with h; subst h
  have h2 : (r.den : ℚ) ≠ 0 := by exact_mod_cast hr.1.ne'
  refine ⟨⟨hr.1, ?_⟩, ?_⟩
  · simpa using hr.2
  · simp only [val]; push_cast; field_simp

theorem dec_ok {r s : Rational} (hr : Canon r) (h : dec c r = .ok s) :
    Canon s ∧ s.val = r.val - 1 := by
  simp only [dec, Out.bind_eq_ok, isub_ok, Out.pure_def] at h
  obtain ⟨_, ⟨_, rfl⟩, h⟩ := h
  injection h with h; subst h
  have h2 : (r.den : ℚ) ≠ 0 := by exact_mod_cast hr.1.ne'
  refine ⟨⟨hr.1, ?_⟩, ?_⟩
  · simpa using hr.2
  · simp only [val]; push_cast; field_simp

theorem canon_ofInt (k : ℤ) : Canon (ofInt k) := by simp [Canon, ofInt]
theorem val_ofInt (k : ℤ) : (ofInt k).val = k := by simp [val, ofInt]

theorem common_ok {l r : Rational} {p : ℤ × ℤ} (hl : Canon l) (hr : Canon r)
    (h : commonNumerators c l r = .ok p) :
    (p.1 : ℚ) = l.val * (Int.lcm l.den r.den : ℤ) ∧ (p.2 : ℚ) = r.val * (Int.lcm l.den r.den : ℤ) := by
  simp only [commonNumerators, Out.bind_eq_ok, denominator_ok, imul_ok, idiv_ok, ilcm_ok,
    Out.pure_def] at h
  obtain ⟨_, ⟨_, rfl⟩, _, ⟨_, rfl⟩, _, ⟨_, rfl⟩, _, ⟨_, _, rfl⟩, _, ⟨_, rfl⟩, _, ⟨_, _, rfl⟩, _,
    ⟨_, rfl⟩, h⟩ := h
  injection h with h; subst h
  have h1 : (l.den : ℚ) ≠ 0 := by exact_mod_cast hl.1.ne'
  have h2 : (r.den : ℚ) ≠ 0 := by exact_mod_cast hr.1.ne'
  unfold val
  simp only
  rw [Int.cast_mul, Int.cast_mul,
    cast_lcm_div hl.1 _ (Int.dvd_lcm_left ..) hl.1.ne',
    cast_lcm_div hl.1 _ (Int.dvd_lcm_right ..) hr.1.ne']
  constructor <;> field_simp

theorem common_cmp {l r : Rational} {p : ℤ × ℤ} (hl : Canon l) (hr : Canon r)
    (h : commonNumerators c l r = .ok p) :
    (p.1 = p.2 ↔ l.val = r.val) ∧ (p.1 < p.2 ↔ l.val < r.val) ∧ (p.1 > p.2 ↔ l.val > r.val) := by
  obtain ⟨h1, h2⟩ := common_ok hl hr h
  have hp : (0 : ℚ) < ((Int.lcm l.den r.den : ℤ) : ℚ) := by exact_mod_cast lcm_pos' hl.1 hr.1
  refine ⟨?_, ?_, ?_⟩
  · rw [← Int.cast_inj (α := ℚ), h1, h2, mul_left_inj' hp.ne']
  · rw [← Int.cast_lt (R := ℚ), h1, h2, mul_lt_mul_iff_left₀ hp]
  · rw [gt_iff_lt, ← Int.cast_lt (R := ℚ), h1, h2, mul_lt_mul_iff_left₀ hp]

/-- Canonical forms are unique. -/
theorem canon_unique {l r : Rational} (hl : Canon l) (hr : Canon r) (h : l.val = r.val) : l = r := by
  have e : ∀ x : Rational, Canon x → x.val.num = x.num ∧ (x.val.den : ℤ) = x.den := by
    intro x hx
    have := Rat.num_div_eq_of_coprime (a := x.num) (b := x.den) hx.1 (by simpa [Int.gcd] using hx.2)
    have h' := Rat.den_div_eq_of_coprime (a := x.num) (b := x.den) hx.1 (by simpa [Int.gcd] using hx.2)
    exact ⟨this, h'⟩
  have a := e l hl
  have b := e r hr
  rw [h] at a
  cases l; cases r
  simp only [Rational.mk.injEq]
  exact ⟨a.1.symm.trans b.1, a.2.symm.trans b.2⟩

end Rational
end Verif
