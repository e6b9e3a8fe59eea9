import Verif.Spec.FloatFFT
import Verif.Model.PocketFloat
import Verif.Lemmas.PocketGeneric

/-! # Rounding errors of one butterfly -/

set_option linter.unusedSimpArgs false
set_option linter.unusedSectionVars false
set_option linter.unusedVariables false

namespace Verif.PocketF

variable {F : Type} [Zero F] [Add F] [Sub F] [Mul F] [Fma F] [Neg F]

/-- Data of magnitude `M`, constants within `h` rounding errors, coefficients up to `b`. -/
structure Env (A : FloatArithNeg F) (M h b : ℝ) : Prop where
  M0 : 0 ≤ M
  h1 : 1 ≤ h
  bu : b * h ^ 2 * A.u ≤ 1
  bM : b * h ^ 2 * (M + A.tiny) ≤ A.huge

/-- `a` is `r` up to `κ h` rounding errors relative to `M`, and `r` is at most `m M`. -/
structure Near (A : FloatArithNeg F) (M h : ℝ) (a : F) (r κ m : ℝ) : Prop where
  fin : A.finite a
  err : |A.val a - r| ≤ κ * h * (A.u * M + A.tiny)
  mag : |r| ≤ m * M
  κ0 : 0 ≤ κ
  m0 : 0 ≤ m

variable {A : FloatArithNeg F} {M h b : ℝ}

theorem Near.mono {a : F} {r κ m κ' m' : ℝ} (E : Env A M h b) (n : Near A M h a r κ m) (hk : κ ≤ κ') (hm : m ≤ m') :
    Near A M h a r κ' m' := by
  have := E.M0
  have := E.h1
  have := A.u_nonneg
  have := A.tiny_nonneg
  refine ⟨n.fin, n.err.trans ?_, n.mag.trans ?_, n.κ0.trans hk, n.m0.trans hm⟩ <;> gcongr

theorem Env.u1 (E : Env A M h b) (hb : 1 ≤ b) : h * A.u ≤ 1 ∧ A.u ≤ 1 ∧ b * h * A.u ≤ 1 ∧ b * A.u ≤ 1 := by
  have h1 := E.h1
  have hu := A.u_nonneg
  have hbu := E.bu
  have e1 : h ≤ h ^ 2 := by nlinarith
  have e2 : b * h ≤ b * h ^ 2 := by gcongr
  have e3 : b * h * A.u ≤ b * h ^ 2 * A.u := by gcongr
  have e4 : 1 * h * A.u ≤ b * h * A.u := by gcongr
  have e5 : b * 1 * A.u ≤ b * h * A.u := by gcongr
  have e6 : 1 * A.u ≤ h * A.u := by gcongr
  refine ⟨by linarith, by linarith, by linarith, by linarith⟩

/-- values stay representable -/
theorem Env.fits (E : Env A M h b) {c v : ℝ} (hb : 1 ≤ b) (hc : c ≤ b) (hc0 : 0 ≤ c)
    (hv : |v| ≤ c * h * (M + A.tiny)) : |v| ≤ A.huge := by
  have h1 := E.h1
  have hM := E.M0
  have ht := A.tiny_nonneg
  refine hv.trans (le_trans ?_ E.bM)
  have e1 : h ≤ h ^ 2 := by nlinarith
  gcongr

theorem Env.delta (E : Env A M h b) (hb : 1 ≤ b) :
    0 ≤ A.u * M + A.tiny ∧ A.u * M + A.tiny ≤ M + A.tiny := by
  have := E.M0
  have := A.u_nonneg
  have ht := A.tiny_nonneg
  have := (E.u1 hb).2.1
  refine ⟨by positivity, ?_⟩
  have : A.u * M ≤ 1 * M := by gcongr
  linarith

/-- the size of a computed value -/
theorem Near.abs_val {a : F} {r κ m : ℝ} (E : Env A M h b) (n : Near A M h a r κ m) :
    |A.val a| ≤ m * M + κ * h * (A.u * M + A.tiny) := by
  have h1 : |A.val a| ≤ |A.val a - r| + |r| := by
    calc |A.val a| = |(A.val a - r) + r| := by ring_nf
      _ ≤ _ := abs_add_le _ _
  linarith [n.err, n.mag]

/-- the common part of addition and subtraction -/
theorem Near.lin {a b' c : F} {r s t κ₁ κ₂ m₁ m₂ v : ℝ} (E : Env A M h b) (na : Near A M h a r κ₁ m₁)
    (nb : Near A M h b' s κ₂ m₂) (hs : κ₁ + κ₂ + m₁ + m₂ + 1 ≤ b)
    (hv : |v| ≤ |A.val a| + |A.val b'|) (ht : |v - t| ≤ |A.val a - r| + |A.val b' - s|) (hts : |t| ≤ |r| + |s|)
    (hc : |v| ≤ A.huge → A.finite c ∧ |A.val c - v| ≤ A.u * |v|) :
    Near A M h c t (κ₁ + κ₂ + m₁ + m₂ + 1) (m₁ + m₂) := by
  have hM := E.M0
  have h1 := E.h1
  have hu := A.u_nonneg
  have htn := A.tiny_nonneg
  have k1 := na.κ0
  have k2 := nb.κ0
  have m1 := na.m0
  have m2 := nb.m0
  have hb : 1 ≤ b := by linarith
  obtain ⟨d0, d1⟩ := E.delta hb
  obtain ⟨δ, hδ⟩ : ∃ δ, δ = A.u * M + A.tiny := ⟨_, rfl⟩
  have ea := na.err
  have eb := nb.err
  have va := na.abs_val E
  have vb := nb.abs_val E
  rw [← hδ] at d0 d1 ea eb va vb
  have hmM : (m₁ + m₂) * M ≤ (m₁ + m₂) * h * (M + A.tiny) := by
    have : (m₁ + m₂) * 1 * (M + 0) ≤ (m₁ + m₂) * h * (M + A.tiny) := by gcongr
    linarith
  have hkd : (κ₁ + κ₂) * h * δ ≤ (κ₁ + κ₂) * h * (M + A.tiny) := by gcongr
  have hbig : |v| ≤ (m₁ + m₂ + κ₁ + κ₂) * h * (M + A.tiny) := by
    have : |v| ≤ (m₁ + m₂) * M + (κ₁ + κ₂) * h * δ := by
      have e : (m₁ + m₂) * M + (κ₁ + κ₂) * h * δ = (m₁ * M + κ₁ * h * δ) + (m₂ * M + κ₂ * h * δ) := by ring
      linarith
    have e : (m₁ + m₂ + κ₁ + κ₂) * h * (M + A.tiny) = (m₁ + m₂) * h * (M + A.tiny) + (κ₁ + κ₂) * h * (M + A.tiny) := by
      ring
    linarith
  obtain ⟨f, er⟩ := hc (E.fits hb (by linarith) (by positivity) hbig)
  refine ⟨f, ?_, ?_, by positivity, by positivity⟩
  · rw [← hδ]
    have e1 : A.u * |v| ≤ (m₁ + m₂) * h * δ + h * δ := by
      have g1 : A.u * |v| ≤ A.u * ((m₁ + m₂) * M + (κ₁ + κ₂) * h * δ) := by
        have e : (m₁ + m₂) * M + (κ₁ + κ₂) * h * δ = (m₁ * M + κ₁ * h * δ) + (m₂ * M + κ₂ * h * δ) := by ring
        rw [e]
        gcongr
        linarith
      have g2 : (m₁ + m₂) * (A.u * M) ≤ (m₁ + m₂) * (h * δ) := by
        have : A.u * M ≤ 1 * δ := by rw [hδ]; linarith
        have : A.u * M ≤ h * δ := this.trans (by gcongr)
        gcongr
      have g3 : (κ₁ + κ₂) * A.u * (h * δ) ≤ 1 * (h * δ) := by
        have : (κ₁ + κ₂) * A.u ≤ b * A.u := by gcongr; linarith
        have : (κ₁ + κ₂) * A.u ≤ 1 := this.trans (E.u1 hb).2.2.2
        have : 0 ≤ h * δ := by positivity
        gcongr
      linarith
    have e2 : |A.val c - t| ≤ |A.val c - v| + |v - t| := by
      calc |A.val c - t| = |(A.val c - v) + (v - t)| := by ring_nf
        _ ≤ _ := abs_add_le _ _
    have e3 : (κ₁ + κ₂ + m₁ + m₂ + 1) * h * δ = κ₁ * h * δ + κ₂ * h * δ + ((m₁ + m₂) * h * δ + h * δ) := by ring
    linarith
  · have := na.mag
    have := nb.mag
    have e : (m₁ + m₂) * M = m₁ * M + m₂ * M := by ring
    linarith

theorem Near.add {a b' : F} {r s κ₁ κ₂ m₁ m₂ : ℝ} (E : Env A M h b) (na : Near A M h a r κ₁ m₁)
    (nb : Near A M h b' s κ₂ m₂) (hs : κ₁ + κ₂ + m₁ + m₂ + 1 ≤ b) :
    Near A M h (a + b') (r + s) (κ₁ + κ₂ + m₁ + m₂ + 1) (m₁ + m₂) := by
  refine Near.lin E na nb hs (v := A.val a + A.val b') (abs_add_le _ _) ?_ (abs_add_le _ _)
    (fun hv => A.add a b' na.fin nb.fin hv)
  calc |A.val a + A.val b' - (r + s)| = |(A.val a - r) + (A.val b' - s)| := by ring_nf
    _ ≤ _ := abs_add_le _ _

theorem Near.sub {a b' : F} {r s κ₁ κ₂ m₁ m₂ : ℝ} (E : Env A M h b) (na : Near A M h a r κ₁ m₁)
    (nb : Near A M h b' s κ₂ m₂) (hs : κ₁ + κ₂ + m₁ + m₂ + 1 ≤ b) :
    Near A M h (a - b') (r - s) (κ₁ + κ₂ + m₁ + m₂ + 1) (m₁ + m₂) := by
  refine Near.lin E na nb hs (v := A.val a - A.val b') (abs_sub _ _) ?_ (abs_sub _ _)
    (fun hv => A.sub a b' na.fin nb.fin hv)
  calc |A.val a - A.val b' - (r - s)| = |(A.val a - r) - (A.val b' - s)| := by ring_nf
    _ ≤ _ := abs_sub _ _

theorem Near.neg {a : F} {r κ m : ℝ} (n : Near A M h a r κ m) : Near A M h (-a) (-r) κ m := by
  obtain ⟨f, e⟩ := A.neg a n.fin
  refine ⟨f, ?_, by rw [abs_neg]; exact n.mag, n.κ0, n.m0⟩
  rw [e, ← neg_sub_neg, neg_neg, neg_neg, abs_sub_comm]
  exact n.err

/-- a constant of magnitude at most 1 -/
structure Const (A : FloatArithNeg F) (h : ℝ) (c : F) (e : ℝ) : Prop where
  acc : A.Accurate h c e
  one : |e| ≤ 1

theorem Const.neg {c : F} {e : ℝ} (n : Const A h c e) : Const A h (-c) (-e) := by
  obtain ⟨f, e'⟩ := A.neg c n.acc.1
  refine ⟨⟨f, ?_⟩, by rw [abs_neg]; exact n.one⟩
  rw [e', ← neg_sub_neg, neg_neg, neg_neg, abs_sub_comm]
  exact n.acc.2

theorem Near.prod {a c p : F} {r e κ m : ℝ} (E : Env A M h b) (na : Near A M h a r κ m) (nc : Const A h c e)
    (hs : 3 * κ + 2 * m + 1 ≤ b)
    (hp : |A.val a * A.val c| ≤ A.huge →
      A.finite p ∧ |A.val p - A.val a * A.val c| ≤ A.u * |A.val a * A.val c| + A.tiny) :
    Near A M h p (r * e) (κ + 3 * m + 4) m := by
  have hM := E.M0
  have h1 := E.h1
  have hu := A.u_nonneg
  have htn := A.tiny_nonneg
  have k0 := na.κ0
  have m0 := na.m0
  have hb : 1 ≤ b := by linarith
  obtain ⟨d0, d1⟩ := E.delta hb
  obtain ⟨u1, u2, u3, u4⟩ := E.u1 hb
  obtain ⟨δ, hδ⟩ : ∃ δ, δ = A.u * M + A.tiny := ⟨_, rfl⟩
  have ea := na.err
  have va := na.abs_val E
  rw [← hδ] at d0 d1 ea va
  have hc2 : |A.val c| ≤ 1 + h * A.u := by
    have : |A.val c| ≤ |A.val c - e| + |e| := by
      calc |A.val c| = |(A.val c - e) + e| := by ring_nf
        _ ≤ _ := abs_add_le _ _
    linarith [nc.acc.2, nc.one]
  have hmM : m * M ≤ m * h * (M + A.tiny) := by
    have : m * 1 * (M + 0) ≤ m * h * (M + A.tiny) := by gcongr
    linarith
  have hkd : κ * h * δ ≤ κ * h * (M + A.tiny) := by gcongr
  have hprod : |A.val a * A.val c| ≤ (m * M + κ * h * δ) * 2 := by
    rw [abs_mul]
    have hc2' : |A.val c| ≤ 2 := by linarith
    have : 0 ≤ |A.val a| := abs_nonneg _
    calc |A.val a| * |A.val c| ≤ |A.val a| * 2 := by gcongr
      _ ≤ _ := by gcongr
  obtain ⟨f, er⟩ := hp (E.fits hb (c := 2 * (m + κ)) (by linarith) (by positivity) (by
    have e : 2 * (m + κ) * h * (M + A.tiny) = (m * h * (M + A.tiny) + κ * h * (M + A.tiny)) * 2 := by ring
    rw [e]
    refine hprod.trans ?_
    gcongr))
  refine ⟨f, ?_, ?_, by positivity, m0⟩
  · rw [← hδ]
    have huM : A.u * M ≤ δ := by rw [hδ]; linarith
    have htδ : A.tiny ≤ δ := by rw [hδ]; nlinarith [mul_nonneg hu hM]
    have hδh : δ ≤ h * δ := by nlinarith
    have hku : κ * h * A.u ≤ 1 := by
      have : κ * h * A.u ≤ b * h * A.u := by gcongr; linarith
      linarith
    -- the exact product of the computed factors
    have t1 : |A.val a * A.val c - r * e| ≤ κ * h * δ * (1 + h * A.u) + m * M * (h * A.u) := by
      calc |A.val a * A.val c - r * e| = |(A.val a - r) * A.val c + r * (A.val c - e)| := by ring_nf
        _ ≤ |(A.val a - r) * A.val c| + |r * (A.val c - e)| := abs_add_le _ _
        _ = |A.val a - r| * |A.val c| + |r| * |A.val c - e| := by rw [abs_mul, abs_mul]
        _ ≤ _ := by
          have g1 := nc.acc.2
          have g2 := na.mag
          have : 0 ≤ |A.val c| := abs_nonneg _
          have : 0 ≤ |A.val c - e| := abs_nonneg _
          have : 0 ≤ κ * h * δ := by positivity
          have : 0 ≤ m * M := by positivity
          gcongr
    have t2 : κ * h * δ * (h * A.u) ≤ h * δ := by
      have e : κ * h * δ * (h * A.u) = (κ * h * A.u) * (h * δ) := by ring
      rw [e]
      have : 0 ≤ h * δ := by positivity
      nlinarith
    have t3 : m * M * (h * A.u) ≤ m * (h * δ) := by
      have e : m * M * (h * A.u) = m * (h * (A.u * M)) := by ring
      rw [e]
      gcongr
    have t4 : A.u * |A.val a * A.val c| ≤ 2 * m * (h * δ) + 2 * (h * δ) := by
      have g1 : A.u * |A.val a * A.val c| ≤ A.u * ((m * M + κ * h * δ) * 2) := by gcongr
      have g2 : A.u * ((m * M + κ * h * δ) * 2) = 2 * (m * (A.u * M)) + 2 * ((κ * h * A.u) * δ) := by ring
      have g3 : m * (A.u * M) ≤ m * (h * δ) := mul_le_mul_of_nonneg_left (by linarith) m0
      have g4 : (κ * h * A.u) * δ ≤ 1 * δ := by gcongr
      linarith
    have t5 : |A.val p - r * e| ≤ |A.val p - A.val a * A.val c| + |A.val a * A.val c - r * e| := by
      calc |A.val p - r * e| = |(A.val p - A.val a * A.val c) + (A.val a * A.val c - r * e)| := by ring_nf
        _ ≤ _ := abs_add_le _ _
    have e : (κ + 3 * m + 4) * h * δ = κ * h * δ + 3 * m * (h * δ) + 4 * (h * δ) := by ring
    rw [e]
    linarith
  · rw [abs_mul]
    have := na.mag
    have := nc.one
    have : 0 ≤ |e| := abs_nonneg _
    have : 0 ≤ m * M := by positivity
    calc |r| * |e| ≤ m * M * 1 := by gcongr
      _ = m * M := by ring

theorem Near.mul {a c : F} {r e κ m : ℝ} (E : Env A M h b) (na : Near A M h a r κ m) (nc : Const A h c e)
    (hs : 3 * κ + 2 * m + 1 ≤ b) : Near A M h (a * c) (r * e) (κ + 3 * m + 4) m :=
  na.prod E nc hs (fun hv => A.mul a c na.fin nc.acc.1 hv)

theorem Near.mul' {a c : F} {r e κ m : ℝ} (E : Env A M h b) (na : Near A M h a r κ m) (nc : Const A h c e)
    (hs : 3 * κ + 2 * m + 1 ≤ b) : Near A M h (c * a) (e * r) (κ + 3 * m + 4) m := by
  rw [mul_comm e r]
  refine na.prod E nc hs (fun hv => ?_)
  rw [mul_comm (A.val a)] at hv ⊢
  exact A.mul c a nc.acc.1 na.fin hv

/-! ### complex numbers -/

structure NearC (A : FloatArithNeg F) (M h : ℝ) (a : Cx F) (z : ℂ) (κ m : ℝ) : Prop where
  re : Near A M h a.re z.re κ m
  im : Near A M h a.im z.im κ m

structure ConstC (A : FloatArithNeg F) (h : ℝ) (c : Cx F) (e : ℂ) : Prop where
  re : Const A h c.re e.re
  im : Const A h c.im e.im

theorem NearC.mono {a : Cx F} {z : ℂ} {κ m κ' m' : ℝ} (E : Env A M h b) (n : NearC A M h a z κ m) (hk : κ ≤ κ')
    (hm : m ≤ m') : NearC A M h a z κ' m' := ⟨n.re.mono E hk hm, n.im.mono E hk hm⟩

theorem NearC.add {a c : Cx F} {z y : ℂ} {κ₁ κ₂ m₁ m₂ : ℝ} (E : Env A M h b) (na : NearC A M h a z κ₁ m₁)
    (nc : NearC A M h c y κ₂ m₂) (hs : κ₁ + κ₂ + m₁ + m₂ + 1 ≤ b) :
    NearC A M h (a + c) (z + y) (κ₁ + κ₂ + m₁ + m₂ + 1) (m₁ + m₂) :=
  ⟨na.re.add E nc.re hs, na.im.add E nc.im hs⟩

theorem NearC.sub {a c : Cx F} {z y : ℂ} {κ₁ κ₂ m₁ m₂ : ℝ} (E : Env A M h b) (na : NearC A M h a z κ₁ m₁)
    (nc : NearC A M h c y κ₂ m₂) (hs : κ₁ + κ₂ + m₁ + m₂ + 1 ≤ b) :
    NearC A M h (a - c) (z - y) (κ₁ + κ₂ + m₁ + m₂ + 1) (m₁ + m₂) :=
  ⟨na.re.sub E nc.re hs, na.im.sub E nc.im hs⟩

theorem NearC.scale {a : Cx F} {c : F} {z : ℂ} {e κ m : ℝ} (E : Env A M h b) (na : NearC A M h a z κ m)
    (nc : Const A h c e) (hs : 3 * κ + 2 * m + 1 ≤ b) :
    NearC A M h (a.scale c) (z * (e : ℂ)) (κ + 3 * m + 4) m := by
  constructor
  · rw [Complex.re_mul_ofReal]; exact na.re.mul E nc hs
  · rw [Complex.im_mul_ofReal]; exact na.im.mul E nc hs

theorem NearC.rot90 {a : Cx F} {z : ℂ} {κ m : ℝ} (fwd : Bool) (na : NearC A M h a z κ m) :
    NearC A M h (rotx90 fwd a) (Pocket.rotx90 fwd z) κ m := by
  cases fwd
  · exact ⟨na.im.neg, na.re⟩
  · exact ⟨na.im, na.re.neg⟩

theorem NearC.rot45 {a : Cx F} {z : ℂ} {κ m : ℝ} {c : F} (E : Env A M h b) (fwd : Bool) (na : NearC A M h a z κ m)
    (nc : Const A h c Pocket.hsqt2) (hs : 3 * (κ + κ + m + m + 1) + 2 * (m + m) + 1 ≤ b) :
    NearC A M h (rotx45 c fwd a) (Pocket.rotx45 fwd z) (κ + κ + m + m + 1 + 3 * (m + m) + 4) (m + m) := by
  have hs' : κ + κ + m + m + 1 ≤ b := by have := na.re.κ0; have := na.re.m0; linarith
  cases fwd
  · exact ⟨(na.re.sub E na.im hs').mul' E nc hs, (na.im.add E na.re hs').mul' E nc hs⟩
  · exact ⟨(na.re.add E na.im hs').mul' E nc hs, (na.im.sub E na.re hs').mul' E nc hs⟩

theorem NearC.rot135 {a : Cx F} {z : ℂ} {κ m : ℝ} {c : F} (E : Env A M h b) (fwd : Bool) (na : NearC A M h a z κ m)
    (nc : Const A h c Pocket.hsqt2) (hs : 3 * (κ + κ + m + m + 1) + 2 * (m + m) + 1 ≤ b) :
    NearC A M h (rotx135 c fwd a) (Pocket.rotx135 fwd z) (κ + κ + m + m + 1 + 3 * (m + m) + 4) (m + m) := by
  have hs' : κ + κ + m + m + 1 ≤ b := by have := na.re.κ0; have := na.re.m0; linarith
  cases fwd
  · exact ⟨(na.re.neg.sub E na.im hs').mul' E nc hs, (na.re.sub E na.im hs').mul' E nc hs⟩
  · exact ⟨(na.im.sub E na.re hs').mul' E nc hs, (na.re.neg.sub E na.im hs').mul' E nc hs⟩

theorem NearC.smul {a c : Cx F} {z e : ℂ} {κ m : ℝ} (E : Env A M h b) (fwd : Bool) (na : NearC A M h a z κ m)
    (nc : ConstC A h c e) (hs : 3 * κ + 8 * m + 9 ≤ b) :
    NearC A M h (PocketF.smul fwd a c) (Pocket.smul fwd z e) (2 * κ + 8 * m + 9) (2 * m) := by
  have hκ := na.re.κ0
  have hm := na.re.m0
  have hs1 : 3 * κ + 2 * m + 1 ≤ b := by linarith
  have hs2 : κ + 3 * m + 4 + (κ + 3 * m + 4) + m + m + 1 ≤ b := by linarith
  have g1 : κ + 3 * m + 4 + (κ + 3 * m + 4) + m + m + 1 ≤ 2 * κ + 8 * m + 9 := by linarith
  have g2 : m + m ≤ 2 * m := by linarith
  cases fwd
  · exact ⟨((na.re.mul E nc.re hs1).sub E (na.im.mul E nc.im hs1) hs2).mono E g1 g2,
      ((na.re.mul E nc.im hs1).add E (na.im.mul E nc.re hs1) hs2).mono E g1 g2⟩
  · exact ⟨((na.re.mul E nc.re hs1).add E (na.im.mul E nc.im hs1) hs2).mono E g1 g2,
      ((na.im.mul E nc.re hs1).sub E (na.re.mul E nc.im hs1) hs2).mono E g1 g2⟩

end Verif.PocketF
