import Verif.Spec.Rational
import Verif.Lemmas.RationalTotal

/-!
# Properties C01–C05: `Rational<T>`

All theorems are for every signed integer type (range `[c.lo, c.hi]`); overflow is undefined
behaviour (`Out.ub`), and `c.asserts` tells whether assertions are compiled in.
-/

namespace Verif
open Rational

/-- Run a client expression on the model. -/
def RExpr.eval (c : ICfg) : RExpr → Out Rational
  | lit n d => make c n d
  | int k => pure (ofInt k)
  | add a b => do let x ← a.eval c; let y ← b.eval c; Rational.add c x y
  | sub a b => do let x ← a.eval c; let y ← b.eval c; Rational.sub c x y
  | mul a b => do let x ← a.eval c; let y ← b.eval c; Rational.mul c x y
  | div a b => do let x ← a.eval c; let y ← b.eval c; Rational.div c x y
  | addI a k => do let x ← a.eval c; addInt c x k
  | subI a k => do let x ← a.eval c; subInt c x k
  | mulI a k => do let x ← a.eval c; mulInt c x k
  | divI a k => do let x ← a.eval c; divInt c x k
  | iadd k a => do let x ← a.eval c; intAdd c k x
  | isub k a => do let x ← a.eval c; intSub c k x
  | imul k a => do let x ← a.eval c; intMul c k x
  | idiv k a => do let x ← a.eval c; intDiv c k x
  | inc a => do let x ← a.eval c; Rational.inc c x
  | dec a => do let x ← a.eval c; Rational.dec c x

/-- Common core of C01 and C02. -/
theorem rexpr_sound (c : ICfg) (e : RExpr) (r : Rational)
    (hsafe : c.asserts = true ∨ (e.NoNegIntFactor ∧ e.denote.isSome)) (h : e.eval c = .ok r) :
    (0 < r.den ∧ Int.gcd r.num r.den = 1) ∧ e.denote = some ((r.num : ℚ) / r.den) := by
  suffices Canon r ∧ e.denote = some r.val from this
  induction e generalizing r with
  | lit n d =>
    have hd : 0 < d := by
      rcases hsafe with hs | ⟨_, hs⟩
      · simp only [RExpr.eval, make, Out.bind_eq_ok, assert_ok] at h
        obtain ⟨_, ha, _⟩ := h
        exact ha hs
      · by_contra hd
        simp [RExpr.denote, hd] at hs
    obtain ⟨h1, h2⟩ := make_ok hd h
    exact ⟨h1, by simp [RExpr.denote, hd, h2]⟩
  | int k =>
    simp only [RExpr.eval, Out.pure_def] at h
    injection h with h; subst h
    exact ⟨canon_ofInt k, by simp [RExpr.denote, val_ofInt]⟩
  | add a b iha ihb =>
    simp only [RExpr.eval, Out.bind_eq_ok] at h
    obtain ⟨x, hx, y, hy, h⟩ := h
    obtain ⟨h1, h2⟩ := iha x (hsafe.imp id fun ⟨p, q⟩ => ⟨p.1, by
      cases ha : a.denote <;> simp_all [RExpr.denote]⟩) hx
    obtain ⟨h3, h4⟩ := ihb y (hsafe.imp id fun ⟨p, q⟩ => ⟨p.2, by
      cases hb : b.denote <;> simp_all [RExpr.denote]⟩) hy
    obtain ⟨h5, h6⟩ := add_ok h1 h3 h
    exact ⟨h5, by simp [RExpr.denote, h2, h4, h6]⟩
  | sub a b iha ihb =>
    simp only [RExpr.eval, Out.bind_eq_ok] at h
    obtain ⟨x, hx, y, hy, h⟩ := h
    obtain ⟨h1, h2⟩ := iha x (hsafe.imp id fun ⟨p, q⟩ => ⟨p.1, by
      cases ha : a.denote <;> simp_all [RExpr.denote]⟩) hx
    obtain ⟨h3, h4⟩ := ihb y (hsafe.imp id fun ⟨p, q⟩ => ⟨p.2, by
      cases hb : b.denote <;> simp_all [RExpr.denote]⟩) hy
    obtain ⟨h5, h6⟩ := sub_ok h1 h3 h
    exact ⟨h5, by simp [RExpr.denote, h2, h4, h6]⟩
  | mul a b iha ihb =>
    simp only [RExpr.eval, Out.bind_eq_ok] at h
    obtain ⟨x, hx, y, hy, h⟩ := h
    obtain ⟨h1, h2⟩ := iha x (hsafe.imp id fun ⟨p, q⟩ => ⟨p.1, by
      cases ha : a.denote <;> simp_all [RExpr.denote]⟩) hx
    obtain ⟨h3, h4⟩ := ihb y (hsafe.imp id fun ⟨p, q⟩ => ⟨p.2, by
      cases hb : b.denote <;> simp_all [RExpr.denote]⟩) hy
    obtain ⟨h5, h6⟩ := mul_ok h1 h3 h
    exact ⟨h5, by simp [RExpr.denote, h2, h4, h6]⟩
  | div a b iha ihb =>
    simp only [RExpr.eval, Out.bind_eq_ok] at h
    obtain ⟨x, hx, y, hy, h⟩ := h
    obtain ⟨h1, h2⟩ := iha x (hsafe.imp id fun ⟨p, q⟩ => ⟨p.1, by
      cases ha : a.denote <;> simp_all [RExpr.denote]⟩) hx
    obtain ⟨h3, h4⟩ := ihb y (hsafe.imp id fun ⟨p, q⟩ => ⟨p.2, by
      cases hb : b.denote <;> simp_all [RExpr.denote]⟩) hy
    have hz : y.num ≠ 0 := by
      rcases hsafe with hs | ⟨_, hs⟩
      · simp only [Rational.div, Out.bind_eq_ok, assert_ok] at h
        obtain ⟨_, ha, _⟩ := h
        exact ha hs
      · intro hy0
        have : y.val = 0 := by simp [val, hy0]
        simp [RExpr.denote, h2, h4, this] at hs
    obtain ⟨h5, h6⟩ := div_ok h1 h3 hz h
    have hv := (val_ne_zero h3).2 hz
    exact ⟨h5, by simp [RExpr.denote, h2, h4, h6, hv]⟩
  | addI a k iha =>
    simp only [RExpr.eval, Out.bind_eq_ok] at h
    obtain ⟨x, hx, h⟩ := h
    obtain ⟨h1, h2⟩ := iha x (hsafe.imp id fun ⟨p, q⟩ => ⟨p, by
      cases ha : a.denote <;> simp_all [RExpr.denote]⟩) hx
    obtain ⟨h5, h6⟩ := addInt_ok h1 h
    exact ⟨h5, by simp [RExpr.denote, h2, h6]⟩
  | subI a k iha =>
    simp only [RExpr.eval, Out.bind_eq_ok] at h
    obtain ⟨x, hx, h⟩ := h
    obtain ⟨h1, h2⟩ := iha x (hsafe.imp id fun ⟨p, q⟩ => ⟨p, by
      cases ha : a.denote <;> simp_all [RExpr.denote]⟩) hx
    obtain ⟨h5, h6⟩ := subInt_ok h1 h
    exact ⟨h5, by simp [RExpr.denote, h2, h6]⟩
  | mulI a k iha =>
    simp only [RExpr.eval, Out.bind_eq_ok] at h
    obtain ⟨x, hx, h⟩ := h
    obtain ⟨h1, h2⟩ := iha x (hsafe.imp id fun ⟨p, q⟩ => ⟨p.2, by
      cases ha : a.denote <;> simp_all [RExpr.denote]⟩) hx
    obtain ⟨h5, h6⟩ := mulInt_ok h1 (hsafe.imp id fun p => p.1.1) h
    exact ⟨h5, by simp [RExpr.denote, h2, h6]⟩
  | divI a k iha =>
    simp only [RExpr.eval, Out.bind_eq_ok] at h
    obtain ⟨x, hx, h⟩ := h
    obtain ⟨h1, h2⟩ := iha x (hsafe.imp id fun ⟨p, q⟩ => ⟨p, by
      cases ha : a.denote <;> simp_all [RExpr.denote]⟩) hx
    have hz : k ≠ 0 := by
      rcases hsafe with hs | ⟨_, hs⟩
      · simp only [divInt, Out.bind_eq_ok, assert_ok] at h
        obtain ⟨_, ha, _⟩ := h
        exact ha hs
      · intro hy0
        simp [RExpr.denote, h2, hy0] at hs
    obtain ⟨h5, h6⟩ := divInt_ok h1 hz h
    exact ⟨h5, by simp [RExpr.denote, h2, h6, hz]⟩
  | iadd k a iha =>
    simp only [RExpr.eval, Out.bind_eq_ok] at h
    obtain ⟨x, hx, h⟩ := h
    obtain ⟨h1, h2⟩ := iha x (hsafe.imp id fun ⟨p, q⟩ => ⟨p, by
      cases ha : a.denote <;> simp_all [RExpr.denote]⟩) hx
    obtain ⟨h5, h6⟩ := addInt_ok h1 h
    exact ⟨h5, by simp [RExpr.denote, h2, h6, add_comm]⟩
  | isub k a iha =>
    simp only [RExpr.eval, Out.bind_eq_ok] at h
    obtain ⟨x, hx, h⟩ := h
    obtain ⟨h1, h2⟩ := iha x (hsafe.imp id fun ⟨p, q⟩ => ⟨p, by
      cases ha : a.denote <;> simp_all [RExpr.denote]⟩) hx
    obtain ⟨h5, h6⟩ := sub_ok (canon_ofInt k) h1 h
    exact ⟨h5, by simp [RExpr.denote, h2, h6, val_ofInt]⟩
  | imul k a iha =>
    simp only [RExpr.eval, Out.bind_eq_ok] at h
    obtain ⟨x, hx, h⟩ := h
    obtain ⟨h1, h2⟩ := iha x (hsafe.imp id fun ⟨p, q⟩ => ⟨p.2, by
      cases ha : a.denote <;> simp_all [RExpr.denote]⟩) hx
    obtain ⟨h5, h6⟩ := mulInt_ok h1 (hsafe.imp id fun p => p.1.1) h
    exact ⟨h5, by simp [RExpr.denote, h2, h6, mul_comm]⟩
  | idiv k a iha =>
    simp only [RExpr.eval, Out.bind_eq_ok] at h
    obtain ⟨x, hx, h⟩ := h
    obtain ⟨h1, h2⟩ := iha x (hsafe.imp id fun ⟨p, q⟩ => ⟨p, by
      cases ha : a.denote <;> simp_all [RExpr.denote]⟩) hx
    have hz : x.num ≠ 0 := by
      rcases hsafe with hs | ⟨_, hs⟩
      · simp only [intDiv, Rational.div, Out.bind_eq_ok, assert_ok] at h
        obtain ⟨_, ha, _⟩ := h
        exact ha hs
      · intro hy0
        have : x.val = 0 := by simp [val, hy0]
        simp [RExpr.denote, h2, this] at hs
    obtain ⟨h5, h6⟩ := div_ok (canon_ofInt k) h1 hz h
    have hv := (val_ne_zero h1).2 hz
    exact ⟨h5, by simp [RExpr.denote, h2, h6, hv, val_ofInt]⟩
  | inc a iha =>
    simp only [RExpr.eval, Out.bind_eq_ok] at h
    obtain ⟨x, hx, h⟩ := h
    obtain ⟨h1, h2⟩ := iha x (hsafe.imp id fun ⟨p, q⟩ => ⟨p, by
      cases ha : a.denote <;> simp_all [RExpr.denote]⟩) hx
    obtain ⟨h5, h6⟩ := inc_ok h1 h
    exact ⟨h5, by simp [RExpr.denote, h2, h6]⟩
  | dec a iha =>
    simp only [RExpr.eval, Out.bind_eq_ok] at h
    obtain ⟨x, hx, h⟩ := h
    obtain ⟨h1, h2⟩ := iha x (hsafe.imp id fun ⟨p, q⟩ => ⟨p, by
      cases ha : a.denote <;> simp_all [RExpr.denote]⟩) hx
    obtain ⟨h5, h6⟩ := dec_ok h1 h
    exact ⟨h5, by simp [RExpr.denote, h2, h6]⟩

/-- **C01** (assertions enabled): whatever sequence of operations produced it, a `Rational` that the
program gets hold of has a positive denominator and is in lowest terms. -/
theorem C01_canonical (c : ICfg) (hc : c.asserts = true) (e : RExpr) (r : Rational)
    (h : e.eval c = .ok r) : 0 < r.den ∧ Int.gcd r.num r.den = 1 :=
  (rexpr_sound c e r (Or.inl hc) h).1

/-- **C01**, release builds: the same for legal programs, *provided* no multiplication by a negative
integer occurs.  Missing for the full claim: that proviso (see `C01_negative_factor_breaks`). -/
theorem C01_canonical_release_partial (c : ICfg) (e : RExpr) (r : Rational)
    (hn : e.NoNegIntFactor) (hd : e.denote.isSome) (h : e.eval c = .ok r) :
    0 < r.den ∧ Int.gcd r.num r.den = 1 :=
  (rexpr_sound c e r (Or.inr ⟨hn, hd⟩) h).1

/-- The code violates C01: `Rational{1,2} * (-3)` aborts with assertions on, and without them yields
the denominator −2. -/
theorem C01_negative_factor_breaks :
    (RExpr.mulI (.lit 1 2) (-3)).eval int64Debug = .assertFail ∧
    (RExpr.mulI (.lit 1 2) (-3)).eval int64Release = .ok ⟨3, -2⟩ := by
  decide

/-- For *every* rational and negative integer the product is refused by a debug build (or overflows):
it never returns. -/
theorem C01_negative_factor_never_returns (c : ICfg) (hc : c.asserts = true) (l r : Rational)
    (hl : 0 < l.den) (k : ℤ) (hk : k < 0) : mulInt c l k ≠ .ok r := by
  intro h
  simp only [mulInt, Out.bind_eq_ok, denominator_ok, imul_ok, igcd_ok, idiv_ok] at h
  obtain ⟨_, ⟨_, rfl⟩, g, ⟨_, rfl⟩, _, ⟨_, rfl⟩, _, ⟨hg, _, rfl⟩, _, ⟨_, rfl⟩, _, ⟨_, rfl⟩, _,
    ⟨_, _, rfl⟩, h⟩ := h
  have hgd : (Int.gcd k l.den : ℤ) ∣ l.den := Int.gcd_dvd_right ..
  have hposz : (0 : ℤ) < (Int.gcd k l.den : ℤ) := gcd_pos_right' _ hl
  have hdp : 0 < l.den / (Int.gcd k l.den : ℤ) := Int.ediv_pos_of_pos_of_dvd hl hposz.le hgd
  simp only [if_pos hk] at h
  rw [tdiv_of_dvd (hgd.mul_left _)] at h
  have : -1 * l.den / (Int.gcd k l.den : ℤ) < 0 := by
    rw [neg_one_mul, Int.neg_ediv_of_dvd hgd]; omega
  simp only [make, Out.bind_eq_ok, assert_ok] at h
  obtain ⟨_, ha, _⟩ := h
  have := ha hc
  omega

example : (RExpr.div (.sub (.lit 6 (4)) (.int 2)) (.lit (-3) 9)).eval int64Debug = .ok ⟨3, 2⟩ := by
  decide

/-- **C02**: every client program that returns, returns exactly the mathematical value
(assertions enabled; includes that illegal programs — zero divisors — never return). -/
theorem C02_exact (c : ICfg) (hc : c.asserts = true) (e : RExpr) (r : Rational)
    (h : e.eval c = .ok r) : e.denote = some ((r.num : ℚ) / r.den) :=
  (rexpr_sound c e r (Or.inl hc) h).2

/-- **C02**, release builds, legal programs without multiplication by a negative integer. -/
theorem C02_exact_release (c : ICfg) (e : RExpr) (r : Rational)
    (hn : e.NoNegIntFactor) (hd : e.denote.isSome) (h : e.eval c = .ok r) :
    e.denote = some ((r.num : ℚ) / r.den) :=
  (rexpr_sound c e r (Or.inr ⟨hn, hd⟩) h).2

/-- **C02**, refusal: a zero divisor fails the assertion, for rational and integer divisors. -/
theorem C02_zero_divisor_refused (c : ICfg) (hc : c.asserts = true) (l r : Rational)
    (hr : r.num = 0) : Rational.div c l r = .assertFail ∧ divInt c l 0 = .assertFail := by
  constructor
  · simp [Rational.div, ICfg.assert, hc, cassert, hr]
  · simp [divInt, ICfg.assert, hc, cassert]

example : (RExpr.mulI (.add (.lit 1 6) (.lit 1 10)) 15).eval int64Release = .ok ⟨4, 1⟩ := by decide

/-- **C03**: comparisons of canonical rationals decide the order of ℚ (all integer types, both build
modes, whenever the comparison does not overflow). -/
theorem C03_compare (c : ICfg) (l r : Rational)
    (hl : 0 < l.den ∧ Int.gcd l.num l.den = 1) (hr : 0 < r.den ∧ Int.gcd r.num r.den = 1)
    (x y : ℚ) (hx : x = (l.num : ℚ) / l.den) (hy : y = (r.num : ℚ) / r.den) (b : Bool) :
    (Rational.eq c l r = .ok b → (b = true ↔ x = y)) ∧
    (Rational.ne c l r = .ok b → (b = true ↔ x ≠ y)) ∧
    (Rational.lt c l r = .ok b → (b = true ↔ x < y)) ∧
    (Rational.gt c l r = .ok b → (b = true ↔ x > y)) ∧
    (Rational.le c l r = .ok b → (b = true ↔ x ≤ y)) ∧
    (Rational.ge c l r = .ok b → (b = true ↔ x ≥ y)) := by
  have hx' : x = l.val := hx
  have hy' : y = r.val := hy
  subst hx' hy'
  refine ⟨?_, ?_, ?_, ?_, ?_, ?_⟩ <;> intro h
  · simp only [Rational.eq, Out.bind_eq_ok, Out.pure_def] at h
    obtain ⟨p, hp, h⟩ := h
    injection h with h; subst h
    simp [(common_cmp hl hr hp).1]
  · simp only [Rational.ne, Rational.eq, Out.bind_eq_ok, Out.pure_def] at h
    obtain ⟨_, ⟨p, hp, h'⟩, h⟩ := h
    injection h' with h'; subst h'
    injection h with h; subst h
    simp [(common_cmp hl hr hp).1]
  · simp only [Rational.lt, Out.bind_eq_ok, Out.pure_def] at h
    obtain ⟨p, hp, h⟩ := h
    injection h with h; subst h
    simp [(common_cmp hl hr hp).2.1]
  · simp only [Rational.gt, Out.bind_eq_ok, Out.pure_def] at h
    obtain ⟨p, hp, h⟩ := h
    injection h with h; subst h
    have := (common_cmp hl hr hp).2.2
    simp only [decide_eq_true_eq]; exact this
  · simp only [Rational.le, Rational.gt, Out.bind_eq_ok, Out.pure_def] at h
    obtain ⟨_, ⟨p, hp, h'⟩, h⟩ := h
    injection h' with h'; subst h'
    injection h with h; subst h
    have := (common_cmp hl hr hp).2.2
    simp only [Bool.not_eq_true', decide_eq_false_iff_not, this, gt_iff_lt, not_lt]
  · simp only [Rational.ge, Rational.lt, Out.bind_eq_ok, Out.pure_def] at h
    obtain ⟨_, ⟨p, hp, h'⟩, h⟩ := h
    injection h' with h'; subst h'
    injection h with h; subst h
    have := (common_cmp hl hr hp).2.1
    simp only [Bool.not_eq_true', decide_eq_false_iff_not, this, not_lt, ge_iff_le]

/-- **C03**: comparisons with an integer, on either side. -/
theorem C03_compare_integer (c : ICfg) (r : Rational) (hr : 0 < r.den ∧ Int.gcd r.num r.den = 1) (k : ℤ)
    (x : ℚ) (hx : x = (r.num : ℚ) / r.den) (b : Bool) :
    (eqInt c r k = .ok b → (b = true ↔ x = k)) ∧ (neInt c r k = .ok b → (b = true ↔ x ≠ k)) ∧
    (ltInt c r k = .ok b → (b = true ↔ x < k)) ∧ (gtInt c r k = .ok b → (b = true ↔ x > k)) ∧
    (leInt c r k = .ok b → (b = true ↔ x ≤ k)) ∧ (geInt c r k = .ok b → (b = true ↔ x ≥ k)) ∧
    (intEq c k r = .ok b → (b = true ↔ k = x)) ∧ (intNe c k r = .ok b → (b = true ↔ k ≠ x)) ∧
    (intLt c k r = .ok b → (b = true ↔ k < x)) ∧ (intGt c k r = .ok b → (b = true ↔ k > x)) ∧
    (intLe c k r = .ok b → (b = true ↔ k ≤ x)) ∧ (intGe c k r = .ok b → (b = true ↔ k ≥ x)) := by
  have hk : (k : ℚ) = ((ofInt k).num : ℚ) / (ofInt k).den := by simp [ofInt]
  obtain ⟨a1, a2, a3, a4, a5, a6⟩ := C03_compare c r (ofInt k) hr (canon_ofInt k) x k hx hk b
  obtain ⟨b1, b2, b3, b4, b5, b6⟩ := C03_compare c (ofInt k) r (canon_ofInt k) hr k x hk hx b
  exact ⟨a1, a2, a3, a4, a5, a6, b1, b2, b3, b4, b5, b6⟩

example : ltInt int64Debug ⟨-7, 3⟩ (-2) = .ok true ∧ intGe int64Debug (-2) ⟨-7, 3⟩ = .ok true ∧ eqInt int64Debug ⟨4, 1⟩ 4 = .ok true := by
  decide

/-- **C02**, compound assignment: a chain of `+=`, `-=`, `*=`, `/=`, with rational operands, on a canonical object leaves the exact
result in it; integer operands are the forms `addI` ... of the client programs of `C02_exact`. -/
theorem C02_compound (c : ICfg) (l r s : Rational) (hl : 0 < l.den ∧ Int.gcd l.num l.den = 1) (hr : 0 < r.den ∧ Int.gcd r.num r.den = 1)
    (x y : ℚ) (hx : x = (l.num : ℚ) / l.den) (hy : y = (r.num : ℚ) / r.den) :
    (assign (fun q => Rational.add c q r) l = .ok s → (s.num : ℚ) / s.den = x + y) ∧
    (assign (fun q => Rational.sub c q r) l = .ok s → (s.num : ℚ) / s.den = x - y) ∧
    (assign (fun q => Rational.mul c q r) l = .ok s → (s.num : ℚ) / s.den = x * y) ∧
    (r.num ≠ 0 → assign (fun q => Rational.div c q r) l = .ok s → (s.num : ℚ) / s.den = x / y) := by
  have e : ∀ op : Rational → Out Rational, assign op l = .ok s → op l = .ok s := by
    intro op h
    simpa [assign] using h
  subst hx hy
  exact ⟨fun h => (add_ok hl hr (e _ h)).2, fun h => (sub_ok hl hr (e _ h)).2, fun h => (mul_ok hl hr (e _ h)).2,
    fun hz h => (div_ok hl hr hz (e _ h)).2⟩

example : assign (fun q => Rational.sub int64Debug q ⟨1, 6⟩) ⟨1, 2⟩ = .ok ⟨1, 3⟩ := by decide

/-- **C03**: values are equal exactly when representations are. -/
theorem C03_representation_unique (l r : Rational)
    (hl : 0 < l.den ∧ Int.gcd l.num l.den = 1) (hr : 0 < r.den ∧ Int.gcd r.num r.den = 1) :
    (l.num : ℚ) / l.den = (r.num : ℚ) / r.den ↔ l = r :=
  ⟨fun h => canon_unique hl hr h, fun h => by rw [h]⟩

example : Rational.lt int64Debug ⟨-1, 3⟩ ⟨-1, 4⟩ = .ok true ∧
    Rational.ge int64Debug ⟨-1, 3⟩ ⟨-1, 4⟩ = .ok false := by decide

/-- **C04** (non-negative part): for a non-negative rational `floor`, `ceil` and `frac` are the
mathematical ones.  Missing for the full claim: negative rationals, where the code is wrong
(`C04_floor_iff`, `C04_ceil_iff`, `C04_negative_wrong`). -/
theorem C04_rounding_partial (c : ICfg) (r : Rational)
    (hr : 0 < r.den ∧ Int.gcd r.num r.den = 1) (hn : 0 ≤ r.num) :
    (∀ k, floor c r = .ok k → k = ⌊(r.num : ℚ) / r.den⌋) ∧
    (∀ k, ceil c r = .ok k → k = ⌈(r.num : ℚ) / r.den⌉) ∧
    (∀ f, frac c r = .ok f → (f.num : ℚ) / f.den = Int.fract ((r.num : ℚ) / r.den)) := by
  have hfl : ∀ k, floor c r = .ok k → k = ⌊(r.num : ℚ) / r.den⌋ := fun k h =>
    (floor_ok hr h).trans ((floor_right_iff hr).2 (Or.inl hn))
  refine ⟨hfl, fun k h => (ceil_ok hr h).trans ((ceil_right_iff hr).2 (Or.inl ?_)), ?_⟩
  · have := hr.1; omega
  · intro f h
    simp only [frac, Out.bind_eq_ok] at h
    obtain ⟨k, hk, h⟩ := h
    have h2 := (subInt_ok hr h).2
    rw [hfl k hk] at h2
    exact h2

/-- `floor` is right exactly for non-negative values and integers. -/
theorem C04_floor_iff (c : ICfg) (r : Rational) (hr : 0 < r.den ∧ Int.gcd r.num r.den = 1)
    (k : ℤ) (h : floor c r = .ok k) :
    k = ⌊(r.num : ℚ) / r.den⌋ ↔ 0 ≤ r.num ∨ r.den = 1 := by
  rw [floor_ok hr h]; exact floor_right_iff hr

/-- `ceil` is right exactly for values above −1 and those with `den ∣ num − 1`. -/
theorem C04_ceil_iff (c : ICfg) (r : Rational) (hr : 0 < r.den ∧ Int.gcd r.num r.den = 1)
    (k : ℤ) (h : ceil c r = .ok k) :
    k = ⌈(r.num : ℚ) / r.den⌉ ↔ -r.den < r.num ∨ r.den ∣ r.num - 1 := by
  rw [ceil_ok hr h]; exact ceil_right_iff hr

/-- `floor(r) + frac(r) = r` for every sign. -/
theorem C04_floor_add_frac (c : ICfg) (r f : Rational)
    (hr : 0 < r.den ∧ Int.gcd r.num r.den = 1) (h : frac c r = .ok f) :
    ∃ k, floor c r = .ok k ∧ (k : ℚ) + (f.num : ℚ) / f.den = (r.num : ℚ) / r.den := by
  simp only [frac, Out.bind_eq_ok] at h
  obtain ⟨k, hk, h⟩ := h
  refine ⟨k, hk, ?_⟩
  have h2 := (subInt_ok hr h).2
  unfold val at h2
  rw [h2]; ring

/-- The code violates C04: `floor(-1/2)` is 0, `ceil(-4/3)` is 0, `frac(-1/2)` is −1/2. -/
theorem C04_negative_wrong :
    floor int64Debug ⟨-1, 2⟩ = .ok 0 ∧ ceil int64Debug ⟨-4, 3⟩ = .ok 0 ∧
    frac int64Debug ⟨-1, 2⟩ = .ok ⟨-1, 2⟩ ∧
    ⌊((-1 : ℤ) : ℚ) / (2 : ℤ)⌋ = -1 ∧ ⌈((-4 : ℤ) : ℚ) / (3 : ℤ)⌉ = -1 := by
  refine ⟨by decide, by decide, by decide, ?_, ?_⟩
  · norm_num [Int.floor_eq_iff]
  · norm_num [Int.ceil_eq_iff]

example : floor int64Debug ⟨17, 5⟩ = .ok 3 ∧ ceil int64Debug ⟨17, 5⟩ = .ok 4 ∧
    frac int64Debug ⟨17, 5⟩ = .ok ⟨2, 5⟩ := by decide

/-- **C05**: on an integer type with range `[-M, M]` at least, operands whose members are bounded by
`B` with `2·B² ≤ M` never overflow, and no assertion fails: all operations return.
(For integer factors: non-negative ones, see C01.) -/
theorem C05_no_overflow (c : ICfg) (B M : ℤ) (hB : 1 ≤ B) (hM : 2 * (B * B) ≤ M)
    (hlo : c.lo ≤ -M) (hhi : M ≤ c.hi) (l r : Rational)
    (hl : 0 < l.den ∧ Int.gcd l.num l.den = 1) (hr : 0 < r.den ∧ Int.gcd r.num r.den = 1)
    (bl : |l.num| ≤ B ∧ |l.den| ≤ B) (br : |r.num| ≤ B ∧ |r.den| ≤ B) (k : ℤ) (bk : |k| ≤ B) :
    (∃ s, Rational.add c l r = .ok s) ∧ (∃ s, Rational.sub c l r = .ok s) ∧
    (∃ s, Rational.mul c l r = .ok s) ∧ (r.num ≠ 0 → ∃ s, Rational.div c l r = .ok s) ∧
    (∃ s, addInt c l k = .ok s) ∧ (∃ s, subInt c l k = .ok s) ∧
    (0 ≤ k → ∃ s, mulInt c l k = .ok s) ∧ (k ≠ 0 → ∃ s, divInt c l k = .ok s) ∧
    (∃ b, Rational.eq c l r = .ok b) ∧ (∃ b, Rational.lt c l r = .ok b) ∧
    (∃ b, Rational.gt c l r = .ok b) ∧
    (∃ s, floor c l = .ok s) ∧ (∃ s, ceil c l = .ok s) := by
  have hc : Holds c M := ⟨hlo, hhi⟩
  have hBB : 1 ≤ B * B := by nlinarith
  have hBB' : B ≤ B * B := by nlinarith
  have hM' : B * B ≤ M := by omega
  obtain ⟨p, hp⟩ := common_total (c := c) hl hr hB hc hM' bl br
  refine ⟨add_total hl hr hB hc hM bl br, sub_total hl hr hB hc hM bl br,
    mul_total hl hr hB hc hM' bl br, fun hz => div_total hl hr hz hB hc hM' bl br,
    addInt_total hl hB hc hM bl bk, subInt_total hl hB hc hM bl bk,
    fun h0 => mulInt_total hl h0 hB hc hM' bl bk, fun h0 => divInt_total hl h0 hB hc hM' bl bk,
    ?_, ?_, ?_, ?_, ?_⟩
  · simp [Rational.eq, hp]
  · simp [Rational.lt, hp]
  · simp [Rational.gt, hp]
  · simp only [floor, den_tot hl.1, Out.ok_bind]
    refine ⟨_, (idiv_ok (c := c)).2 ⟨hl.1.ne', hc.inR ?_, rfl⟩⟩
    exact (abs_tdiv_le _ _).trans (bl.1.trans (by omega))
  · have hsum : |l.num + l.den| ≤ 2 * B := (abs_add_le _ _).trans (by have := bl.1; have := bl.2; omega)
    have h2B : 2 * B ≤ M := by omega
    have hd := hl.1
    have hb1 := bl.1
    have hb2 := bl.2
    have hsub : |l.num + l.den - 1| ≤ 2 * B := by rw [abs_le] at *; omega
    simp only [ceil, den_tot hl.1, Out.ok_bind, add_tot hc (hsum.trans h2B),
      sub_tot hc (hsub.trans h2B)]
    refine ⟨_, (idiv_ok (c := c)).2 ⟨hl.1.ne', hc.inR ?_, rfl⟩⟩
    exact (abs_tdiv_le _ _).trans (hsub.trans h2B)

/-- **C05** for `int64_t`: members that fit in 31 bits plus sign are safe. -/
theorem C05_int64 (l r : Rational)
    (hl : 0 < l.den ∧ Int.gcd l.num l.den = 1) (hr : 0 < r.den ∧ Int.gcd r.num r.den = 1)
    (bl : |l.num| < 2 ^ 31 ∧ |l.den| < 2 ^ 31) (br : |r.num| < 2 ^ 31 ∧ |r.den| < 2 ^ 31) :
    (∃ s, Rational.add int64Debug l r = .ok s) ∧ (∃ s, Rational.sub int64Debug l r = .ok s) ∧
    (∃ s, Rational.mul int64Debug l r = .ok s) ∧
    (r.num ≠ 0 → ∃ s, Rational.div int64Debug l r = .ok s) ∧
    (∃ b, Rational.eq int64Debug l r = .ok b) ∧ (∃ b, Rational.lt int64Debug l r = .ok b) ∧
    (∃ b, Rational.gt int64Debug l r = .ok b) := by
  have h := C05_no_overflow int64Debug (2 ^ 31 - 1) (2 ^ 63 - 1) (by norm_num) (by norm_num)
    (by norm_num [int64Debug]) (by norm_num [int64Debug]) l r hl hr
    ⟨by have := bl.1; omega, by have := bl.2; omega⟩ ⟨by have := br.1; omega, by have := br.2; omega⟩
    0 (by norm_num)
  exact ⟨h.1, h.2.1, h.2.2.1, h.2.2.2.1, h.2.2.2.2.2.2.2.2.1, h.2.2.2.2.2.2.2.2.2.1,
    h.2.2.2.2.2.2.2.2.2.2.1⟩

/-- **C05**, sharp form for products: if the operands and the *reduced* result are representable,
the product is computed without overflow and is that result. -/
theorem C05_product_sharp (c : ICfg) (M : ℤ) (hlo : c.lo ≤ -M) (hhi : M ≤ c.hi) (l r t : Rational)
    (hl : 0 < l.den ∧ Int.gcd l.num l.den = 1) (hr : 0 < r.den ∧ Int.gcd r.num r.den = 1)
    (ht : 0 < t.den ∧ Int.gcd t.num t.den = 1)
    (hv : (t.num : ℚ) / t.den = (l.num : ℚ) / l.den * ((r.num : ℚ) / r.den))
    (bl : |l.num| ≤ M ∧ |l.den| ≤ M) (br : |r.num| ≤ M ∧ |r.den| ≤ M)
    (bt : |t.num| ≤ M ∧ |t.den| ≤ M) : Rational.mul c l r = .ok t :=
  mul_total_of_result hl hr ht hv ⟨hlo, hhi⟩ bl br bt

-- the hypotheses are met by operands whose naive product would overflow
example : Rational.mul int64Debug ⟨2 ^ 62, 3⟩ ⟨9, 2 ^ 62⟩ = .ok ⟨3, 1⟩ := by decide +kernel
-- and beyond the bound addition really overflows
example : Rational.add int64Debug ⟨2 ^ 62, 1⟩ ⟨2 ^ 62, 1⟩ = .ub := by decide +kernel

end Verif
