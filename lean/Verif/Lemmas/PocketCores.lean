import Verif.Lemmas.PocketNear

/-! # Rounding errors of the butterflies with fixed radix -/

set_option linter.unusedSimpArgs false
set_option linter.unusedSectionVars false
set_option linter.unusedVariables false

namespace Verif.PocketF
open Pocket (cR cI w)

variable {F : Type} [Zero F] [Add F] [Sub F] [Mul F] [Fma F] [Neg F]
variable {A : FloatArithNeg F} {M h b : ℝ}

variable {L : Lits F}

theorem LitsOk.c (H : LitsOk A h L) {n j : ℕ} (hn : n = 3 ∨ n = 5 ∨ n = 7 ∨ n = 11) (h0 : 0 < j) (hj : 2 * j < n) :
    Const A h (L.cos n j) (cR n j) := ⟨H.cos n j hn h0 hj, Real.abs_cos_le_one _⟩

theorem LitsOk.s (H : LitsOk A h L) (fwd : Bool) {n j : ℕ} (hn : n = 3 ∨ n = 5 ∨ n = 7 ∨ n = 11) (h0 : 0 < j)
    (hj : 2 * j < n) : Const A h (L.tw fwd n j) (cI fwd n j) := by
  have k : Const A h (L.sin n j) (Real.sin (2 * Real.pi * j / n)) := ⟨H.sin n j hn h0 hj, Real.abs_sin_le_one _⟩
  cases fwd
  · have e : cI false n j = Real.sin (2 * Real.pi * j / n) := by simp [cI]
    rw [e]; exact k
  · have e : cI true n j = -Real.sin (2 * Real.pi * j / n) := by simp [cI]
    rw [e]; exact k.neg

theorem LitsOk.r (H : LitsOk A h L) : Const A h L.hsqt2 Pocket.hsqt2 := by
  refine ⟨H.hsqt2, ?_⟩
  have h1 : 1 ≤ Real.sqrt 2 := Real.one_le_sqrt.2 (by norm_num)
  unfold Pocket.hsqt2
  rw [abs_of_nonneg (by positivity), div_le_one (by positivity)]
  exact h1

/-- What a butterfly of radix `p` must do: `16 p²` rounding errors, the twiddle multiplication included. -/
def CoreNear (A : FloatArithNeg F) (M h : ℝ) (fwd : Bool) (p : ℕ) (y : Cx F) (z : ℕ → ℂ) (j : ℕ) : Prop :=
  ∃ κ m, NearC A M h y (∑ b ∈ Finset.range p, z b * w fwd p (j * b)) κ m ∧ 2 * κ + 8 * m + 9 ≤ 16 * (p : ℝ) ^ 2

variable {x : ℕ → Cx F} {z : ℕ → ℂ} {fwd : Bool}

theorem CoreNear.of {p j : ℕ} {y : Cx F} {s : ℂ} {κ m : ℝ} (hs : s = ∑ b ∈ Finset.range p, z b * w fwd p (j * b))
    (n : NearC A M h y s κ m) (hk : 2 * κ + 8 * m + 9 ≤ 16 * (p : ℝ) ^ 2) : CoreNear A M h fwd p y z j :=
  ⟨κ, m, hs ▸ n, hk⟩

theorem core2_near (E : Env A M h b) (hb : 48 * (2 : ℕ) ^ 2 ≤ b) (hx : ∀ j, j < 2 → NearC A M h (x j) (z j) 0 1)
    {j : ℕ} (hj : j < 2) : CoreNear A M h fwd 2 (core2 x j) z j := by
  push_cast at hb
  have h0 := hx 0 (by norm_num)
  have h1 := hx 1 (by norm_num)
  interval_cases j
  · exact CoreNear.of (Pocket.bf2_0 fwd z) (h0.add E h1 (by linarith)) (by norm_num)
  · exact CoreNear.of (Pocket.bf2_1 fwd z) (h0.sub E h1 (by linarith)) (by norm_num)

theorem core4_near (E : Env A M h b) (hb : 48 * (4 : ℕ) ^ 2 ≤ b) (hx : ∀ j, j < 4 → NearC A M h (x j) (z j) 0 1)
    {j : ℕ} (hj : j < 4) : CoreNear A M h fwd 4 (core4 fwd x j) z j := by
  push_cast at hb
  have h0 := hx 0 (by norm_num)
  have h1 := hx 1 (by norm_num)
  have h2 := hx 2 (by norm_num)
  have h3 := hx 3 (by norm_num)
  have t2 := h0.add E h2 (by linarith)
  have t1 := h0.sub E h2 (by linarith)
  have t3 := h1.add E h3 (by linarith)
  have t4 := (h1.sub E h3 (by linarith)).rot90 fwd
  interval_cases j
  · exact CoreNear.of (Pocket.bf4_0 fwd z) (t2.add E t3 (by linarith)) (by norm_num)
  · exact CoreNear.of (Pocket.bf4_1 fwd z) (t1.add E t4 (by linarith)) (by norm_num)
  · exact CoreNear.of (Pocket.bf4_2 fwd z) (t2.sub E t3 (by linarith)) (by norm_num)
  · exact CoreNear.of (Pocket.bf4_3 fwd z) (t1.sub E t4 (by linarith)) (by norm_num)

theorem core8_near (E : Env A M h b) (H : LitsOk A h L) (hb : 48 * (8 : ℕ) ^ 2 ≤ b)
    (hx : ∀ j, j < 8 → NearC A M h (x j) (z j) 0 1)
    {j : ℕ} (hj : j < 8) : CoreNear A M h fwd 8 (core8 L fwd x j) z j := by
  push_cast at hb
  have h0 := hx 0 (by norm_num)
  have h1 := hx 1 (by norm_num)
  have h2 := hx 2 (by norm_num)
  have h3 := hx 3 (by norm_num)
  have h4 := hx 4 (by norm_num)
  have h5 := hx 5 (by norm_num)
  have h6 := hx 6 (by norm_num)
  have h7 := hx 7 (by norm_num)
  have a1 := h1.add E h5 (by linarith)
  have a5 := h1.sub E h5 (by linarith)
  have a3 := h3.add E h7 (by linarith)
  have a7 := (h3.sub E h7 (by linarith)).rot90 fwd
  have b1 := a1.add E a3 (by linarith)
  have b3 := (a1.sub E a3 (by linarith)).rot90 fwd
  have b5 := (a5.add E a7 (by linarith)).rot45 E fwd H.r (by linarith)
  have b7 := (a5.sub E a7 (by linarith)).rot135 E fwd H.r (by linarith)
  have a0 := h0.add E h4 (by linarith)
  have a4 := h0.sub E h4 (by linarith)
  have a2 := h2.add E h6 (by linarith)
  have a6 := (h2.sub E h6 (by linarith)).rot90 fwd
  have c0 := a0.add E a2 (by linarith)
  have c2 := a0.sub E a2 (by linarith)
  have c4 := a4.add E a6 (by linarith)
  have c6 := a4.sub E a6 (by linarith)
  interval_cases j
  · exact CoreNear.of (Pocket.bf8_0 fwd z) (c0.add E b1 (by linarith)) (by norm_num)
  · exact CoreNear.of (Pocket.bf8_1 fwd z) (c4.add E b5 (by linarith)) (by norm_num)
  · exact CoreNear.of (Pocket.bf8_2 fwd z) (c2.add E b3 (by linarith)) (by norm_num)
  · exact CoreNear.of (Pocket.bf8_3 fwd z) (c6.add E b7 (by linarith)) (by norm_num)
  · exact CoreNear.of (Pocket.bf8_4 fwd z) (c0.sub E b1 (by linarith)) (by norm_num)
  · exact CoreNear.of (Pocket.bf8_5 fwd z) (c4.sub E b5 (by linarith)) (by norm_num)
  · exact CoreNear.of (Pocket.bf8_6 fwd z) (c2.sub E b3 (by linarith)) (by norm_num)
  · exact CoreNear.of (Pocket.bf8_7 fwd z) (c6.sub E b7 (by linarith)) (by norm_num)

/-! ### the odd radices -/

theorem part3_near (E : Env A M h b) (hb : 100 ≤ b) {t0 t1 t2 : Cx F} {z0 z1 z2 : ℂ} {c s : F} {c' s' : ℝ}
    (n0 : NearC A M h t0 z0 0 1) (n1 : NearC A M h t1 z1 3 2) (n2 : NearC A M h t2 z2 3 2)
    (hc : Const A h c c') (hs : Const A h s s') :
    NearC A M h (part3 t0 t1 t2 c s).1 (Pocket.part3 z0 z1 z2 c' s').1 36 5 ∧
    NearC A M h (part3 t0 t1 t2 c s).2 (Pocket.part3 z0 z1 z2 c' s').2 36 5 := by
  have ca := (n0.add E (n1.scale E hc (by linarith)) (by linarith)).mono E (κ' := 17) (m' := 3) (by norm_num)
    (by norm_num)
  have cb : NearC A M h ⟨-t2.im * s, t2.re * s⟩ ⟨-z2.im * s', z2.re * s'⟩ 13 2 :=
    ⟨(n2.im.neg.mul E hs (by linarith)).mono E (by norm_num) (by norm_num),
      (n2.re.mul E hs (by linarith)).mono E (by norm_num) (by norm_num)⟩
  exact ⟨(ca.add E cb (by linarith)).mono E (by norm_num) (by norm_num),
    (ca.sub E cb (by linarith)).mono E (by norm_num) (by norm_num)⟩

theorem core3_near (E : Env A M h b) (H : LitsOk A h L) (hb : 48 * (3 : ℕ) ^ 2 ≤ b)
    (hx : ∀ j, j < 3 → NearC A M h (x j) (z j) 0 1)
    {j : ℕ} (hj : j < 3) : CoreNear A M h fwd 3 (core3 L fwd x j) z j := by
  push_cast at hb
  have h0 := hx 0 (by norm_num)
  have h1 := hx 1 (by norm_num)
  have h2 := hx 2 (by norm_num)
  have t1 := (h1.add E h2 (by linarith)).mono E (κ' := 3) (m' := 2) (by norm_num) (by norm_num)
  have t2 := (h1.sub E h2 (by linarith)).mono E (κ' := 3) (m' := 2) (by norm_num) (by norm_num)
  have p := part3_near E (by linarith) h0 t1 t2 (H.c (n := 3) (j := 1) (by norm_num) (by norm_num) (by norm_num))
    (H.s fwd (n := 3) (j := 1) (by norm_num) (by norm_num) (by norm_num))
  interval_cases j
  · exact CoreNear.of (Pocket.bf3_0 fwd z) (h0.add E t1 (by linarith)) (by norm_num)
  · exact ⟨36, 5, by rw [← Pocket.bf3_1]; exact p.1, by norm_num⟩
  · exact ⟨36, 5, by rw [← Pocket.bf3_2]; exact p.2, by norm_num⟩

/-- a sum of products, one term more -/
theorem Near.step {t u c : F} {r s e κ m : ℝ} (E : Env A M h b) (n : Near A M h t r κ m) (n1 : Near A M h u s 3 2)
    (hc : Const A h c e) (hs : κ + m + 100 ≤ b) :
    Near A M h (t + c * u) (r + e * s) (κ + m + 16) (m + 2) := by
  have := n.κ0
  have := n.m0
  exact (n.add E (n1.mul' E hc (by linarith)) (by linarith)).mono E (by linarith) (by linarith)

theorem Near.first {u c : F} {s e : ℝ} (E : Env A M h b) (n1 : Near A M h u s 3 2)
    (hc : Const A h c e) (hs : 100 ≤ b) : Near A M h (c * u) (e * s) 13 2 :=
  (n1.mul' E hc (by linarith)).mono E (by norm_num) (by norm_num)

theorem part5_near (E : Env A M h b) (hb : 1200 ≤ b) {t0 t1 t2 t3 t4 : Cx F} {z0 z1 z2 z3 z4 : ℂ}
    {c1 c2 s1 s2 : F} {c1' c2' s1' s2' : ℝ}
    (n0 : NearC A M h t0 z0 0 1) (n1 : NearC A M h t1 z1 3 2) (n2 : NearC A M h t2 z2 3 2)
    (n3 : NearC A M h t3 z3 3 2) (n4 : NearC A M h t4 z4 3 2)
    (hc1 : Const A h c1 c1') (hc2 : Const A h c2 c2') (hs1 : Const A h s1 s1') (hs2 : Const A h s2 s2') :
    NearC A M h (part5 t0 t1 t2 t3 t4 c1 c2 s1 s2).1 (Pocket.part5 z0 z1 z2 z3 z4 c1' c2' s1' s2').1 77 9 ∧
    NearC A M h (part5 t0 t1 t2 t3 t4 c1 c2 s1 s2).2 (Pocket.part5 z0 z1 z2 z3 z4 c1' c2' s1' s2').2 77 9 := by
  have ca : NearC A M h ⟨t0.re + c1 * t1.re + c2 * t2.re, t0.im + c1 * t1.im + c2 * t2.im⟩
      ⟨z0.re + c1' * z1.re + c2' * z2.re, z0.im + c1' * z1.im + c2' * z2.im⟩ 36 5 :=
    ⟨((n0.re.step E n1.re hc1 (by linarith)).step E n2.re hc2 (by linarith)).mono E (by norm_num) (by norm_num),
      ((n0.im.step E n1.im hc1 (by linarith)).step E n2.im hc2 (by linarith)).mono E (by norm_num) (by norm_num)⟩
  have cb : NearC A M h ⟨-(s1 * t4.im + s2 * t3.im), s1 * t4.re + s2 * t3.re⟩
      ⟨-(s1' * z4.im + s2' * z3.im), s1' * z4.re + s2' * z3.re⟩ 31 4 :=
    ⟨((n4.im.first E hs1 (by linarith)).step E n3.im hs2 (by linarith)).neg.mono E (by norm_num) (by norm_num),
      ((n4.re.first E hs1 (by linarith)).step E n3.re hs2 (by linarith)).mono E (by norm_num) (by norm_num)⟩
  exact ⟨(ca.add E cb (by linarith)).mono E (by norm_num) (by norm_num),
    (ca.sub E cb (by linarith)).mono E (by norm_num) (by norm_num)⟩

/-- a sum, one term more -/
theorem Near.plus {t u : F} {r s κ m : ℝ} (E : Env A M h b) (n : Near A M h t r κ m) (n1 : Near A M h u s 3 2)
    (hs : κ + m + 6 ≤ b) : Near A M h (t + u) (r + s) (κ + m + 6) (m + 2) :=
  (n.add E n1 (by linarith)).mono E (by linarith) (by linarith)

theorem core5_near (E : Env A M h b) (H : LitsOk A h L) (hb : 48 * (5 : ℕ) ^ 2 ≤ b)
    (hx : ∀ j, j < 5 → NearC A M h (x j) (z j) 0 1)
    {j : ℕ} (hj : j < 5) : CoreNear A M h fwd 5 (core5 L fwd x j) z j := by
  push_cast at hb
  have h0 := hx 0 (by norm_num)
  have h1 := hx 1 (by norm_num)
  have h2 := hx 2 (by norm_num)
  have h3 := hx 3 (by norm_num)
  have h4 := hx 4 (by norm_num)
  have t1 := (h1.add E h4 (by linarith)).mono E (κ' := 3) (m' := 2) (by norm_num) (by norm_num)
  have t4 := (h1.sub E h4 (by linarith)).mono E (κ' := 3) (m' := 2) (by norm_num) (by norm_num)
  have t2 := (h2.add E h3 (by linarith)).mono E (κ' := 3) (m' := 2) (by norm_num) (by norm_num)
  have t3 := (h2.sub E h3 (by linarith)).mono E (κ' := 3) (m' := 2) (by norm_num) (by norm_num)
  have c1 := H.c (n := 5) (j := 1) (by norm_num) (by norm_num) (by norm_num)
  have c2 := H.c (n := 5) (j := 2) (by norm_num) (by norm_num) (by norm_num)
  have s1 := H.s fwd (n := 5) (j := 1) (by norm_num) (by norm_num) (by norm_num)
  have s2 := H.s fwd (n := 5) (j := 2) (by norm_num) (by norm_num) (by norm_num)
  have p := part5_near E (by linarith) h0 t1 t2 t3 t4 c1 c2 s1 s2
  have q := part5_near E (by linarith) h0 t1 t2 t3 t4 c2 c1 s2 s1.neg
  interval_cases j
  · exact CoreNear.of (Pocket.bf5_0 fwd z) (⟨(h0.re.plus E t1.re (by linarith)).plus E t2.re (by linarith),
        (h0.im.plus E t1.im (by linarith)).plus E t2.im (by linarith)⟩) (by norm_num)
  · exact ⟨77, 9, by rw [← Pocket.bf5_1]; exact p.1, by norm_num⟩
  · exact ⟨77, 9, by rw [← Pocket.bf5_2]; exact q.1, by norm_num⟩
  · exact ⟨77, 9, by rw [← Pocket.bf5_3]; exact q.2, by norm_num⟩
  · exact ⟨77, 9, by rw [← Pocket.bf5_4]; exact p.2, by norm_num⟩

theorem part7_near (E : Env A M h b) (hb : 2000 ≤ b) {t1 t2 t3 t4 t5 t6 t7 : Cx F} {z1 z2 z3 z4 z5 z6 z7 : ℂ}
    {c1 c2 c3 s1 s2 s3 : F} {c1' c2' c3' s1' s2' s3' : ℝ}
    (n1 : NearC A M h t1 z1 0 1) (n2 : NearC A M h t2 z2 3 2) (n3 : NearC A M h t3 z3 3 2)
    (n4 : NearC A M h t4 z4 3 2) (n5 : NearC A M h t5 z5 3 2) (n6 : NearC A M h t6 z6 3 2)
    (n7 : NearC A M h t7 z7 3 2)
    (hc1 : Const A h c1 c1') (hc2 : Const A h c2 c2') (hc3 : Const A h c3 c3')
    (hs1 : Const A h s1 s1') (hs2 : Const A h s2 s2') (hs3 : Const A h s3 s3') :
    NearC A M h (part7 t1 t2 t3 t4 t5 t6 t7 c1 c2 c3 s1 s2 s3).1
      (Pocket.part7 z1 z2 z3 z4 z5 z6 z7 c1' c2' c3' s1' s2' s3').1 122 13 ∧
    NearC A M h (part7 t1 t2 t3 t4 t5 t6 t7 c1 c2 c3 s1 s2 s3).2
      (Pocket.part7 z1 z2 z3 z4 z5 z6 z7 c1' c2' c3' s1' s2' s3').2 122 13 := by
  have ca : NearC A M h
      ⟨t1.re + c1 * t2.re + c2 * t3.re + c3 * t4.re, t1.im + c1 * t2.im + c2 * t3.im + c3 * t4.im⟩
      ⟨z1.re + c1' * z2.re + c2' * z3.re + c3' * z4.re, z1.im + c1' * z2.im + c2' * z3.im + c3' * z4.im⟩ 57 7 :=
    ⟨(((n1.re.step E n2.re hc1 (by linarith)).step E n3.re hc2 (by linarith)).step E n4.re hc3 (by linarith)).mono E
        (by norm_num) (by norm_num),
      (((n1.im.step E n2.im hc1 (by linarith)).step E n3.im hc2 (by linarith)).step E n4.im hc3 (by linarith)).mono E
        (by norm_num) (by norm_num)⟩
  have cb : NearC A M h ⟨-(s1 * t7.im + s2 * t6.im + s3 * t5.im), s1 * t7.re + s2 * t6.re + s3 * t5.re⟩
      ⟨-(s1' * z7.im + s2' * z6.im + s3' * z5.im), s1' * z7.re + s2' * z6.re + s3' * z5.re⟩ 51 6 :=
    ⟨(((n7.im.first E hs1 (by linarith)).step E n6.im hs2 (by linarith)).step E n5.im hs3 (by linarith)).neg.mono E
        (by norm_num) (by norm_num),
      (((n7.re.first E hs1 (by linarith)).step E n6.re hs2 (by linarith)).step E n5.re hs3 (by linarith)).mono E
        (by norm_num) (by norm_num)⟩
  exact ⟨(ca.add E cb (by linarith)).mono E (by norm_num) (by norm_num),
    (ca.sub E cb (by linarith)).mono E (by norm_num) (by norm_num)⟩

theorem core7_near (E : Env A M h b) (H : LitsOk A h L) (hb : 48 * (7 : ℕ) ^ 2 ≤ b)
    (hx : ∀ j, j < 7 → NearC A M h (x j) (z j) 0 1)
    {j : ℕ} (hj : j < 7) : CoreNear A M h fwd 7 (core7 L fwd x j) z j := by
  push_cast at hb
  have h0 := hx 0 (by norm_num)
  have h1 := hx 1 (by norm_num)
  have h2 := hx 2 (by norm_num)
  have h3 := hx 3 (by norm_num)
  have h4 := hx 4 (by norm_num)
  have h5 := hx 5 (by norm_num)
  have h6 := hx 6 (by norm_num)
  have t2 := (h1.add E h6 (by linarith)).mono E (κ' := 3) (m' := 2) (by norm_num) (by norm_num)
  have t7 := (h1.sub E h6 (by linarith)).mono E (κ' := 3) (m' := 2) (by norm_num) (by norm_num)
  have t3 := (h2.add E h5 (by linarith)).mono E (κ' := 3) (m' := 2) (by norm_num) (by norm_num)
  have t6 := (h2.sub E h5 (by linarith)).mono E (κ' := 3) (m' := 2) (by norm_num) (by norm_num)
  have t4 := (h3.add E h4 (by linarith)).mono E (κ' := 3) (m' := 2) (by norm_num) (by norm_num)
  have t5 := (h3.sub E h4 (by linarith)).mono E (κ' := 3) (m' := 2) (by norm_num) (by norm_num)
  have c1 := H.c (n := 7) (j := 1) (by norm_num) (by norm_num) (by norm_num)
  have c2 := H.c (n := 7) (j := 2) (by norm_num) (by norm_num) (by norm_num)
  have c3 := H.c (n := 7) (j := 3) (by norm_num) (by norm_num) (by norm_num)
  have s1 := H.s fwd (n := 7) (j := 1) (by norm_num) (by norm_num) (by norm_num)
  have s2 := H.s fwd (n := 7) (j := 2) (by norm_num) (by norm_num) (by norm_num)
  have s3 := H.s fwd (n := 7) (j := 3) (by norm_num) (by norm_num) (by norm_num)
  have p := part7_near E (by linarith) h0 t2 t3 t4 t5 t6 t7 c1 c2 c3 s1 s2 s3
  have q := part7_near E (by linarith) h0 t2 t3 t4 t5 t6 t7 c2 c3 c1 s2 s3.neg s1.neg
  have r := part7_near E (by linarith) h0 t2 t3 t4 t5 t6 t7 c3 c1 c2 s3 s1.neg s2
  interval_cases j
  · exact CoreNear.of (Pocket.bf7_0 fwd z) (⟨((h0.re.plus E t2.re (by linarith)).plus E t3.re (by linarith)).plus E t4.re (by linarith),
        ((h0.im.plus E t2.im (by linarith)).plus E t3.im (by linarith)).plus E t4.im (by linarith)⟩) (by norm_num)
  · exact ⟨122, 13, by rw [← Pocket.bf7_1]; exact p.1, by norm_num⟩
  · exact ⟨122, 13, by rw [← Pocket.bf7_2]; exact q.1, by norm_num⟩
  · exact ⟨122, 13, by rw [← Pocket.bf7_3]; exact r.1, by norm_num⟩
  · exact ⟨122, 13, by rw [← Pocket.bf7_4]; exact r.2, by norm_num⟩
  · exact ⟨122, 13, by rw [← Pocket.bf7_5]; exact q.2, by norm_num⟩
  · exact ⟨122, 13, by rw [← Pocket.bf7_6]; exact p.2, by norm_num⟩

/-- a complex sum of products, one term more -/
theorem NearC.stepC {t u : Cx F} {c : F} {r s : ℂ} {e κ m : ℝ} (E : Env A M h b) (n : NearC A M h t r κ m)
    (n1 : NearC A M h u s 3 2) (hc : Const A h c e) (hs : κ + m + 100 ≤ b) :
    NearC A M h (t + u.scale c) (r + s * (e : ℂ)) (κ + m + 16) (m + 2) := by
  have := n.re.κ0
  have := n.re.m0
  exact (n.add E (n1.scale E hc (by linarith)) (by linarith)).mono E (by linarith) (by linarith)

theorem part11_near (E : Env A M h b) (hb : 5000 ≤ b) {t1 t2 t3 t4 t5 t6 t7 t8 t9 t10 t11 : Cx F}
    {z1 z2 z3 z4 z5 z6 z7 z8 z9 z10 z11 : ℂ}
    {c1 c2 c3 c4 c5 s1 s2 s3 s4 s5 : F} {c1' c2' c3' c4' c5' s1' s2' s3' s4' s5' : ℝ}
    (n1 : NearC A M h t1 z1 0 1) (n2 : NearC A M h t2 z2 3 2) (n3 : NearC A M h t3 z3 3 2)
    (n4 : NearC A M h t4 z4 3 2) (n5 : NearC A M h t5 z5 3 2) (n6 : NearC A M h t6 z6 3 2)
    (n7 : NearC A M h t7 z7 3 2) (n8 : NearC A M h t8 z8 3 2) (n9 : NearC A M h t9 z9 3 2)
    (n10 : NearC A M h t10 z10 3 2) (n11 : NearC A M h t11 z11 3 2)
    (hc1 : Const A h c1 c1') (hc2 : Const A h c2 c2') (hc3 : Const A h c3 c3') (hc4 : Const A h c4 c4')
    (hc5 : Const A h c5 c5')
    (hs1 : Const A h s1 s1') (hs2 : Const A h s2 s2') (hs3 : Const A h s3 s3') (hs4 : Const A h s4 s4')
    (hs5 : Const A h s5 s5') :
    NearC A M h (part11 t1 t2 t3 t4 t5 t6 t7 t8 t9 t10 t11 c1 c2 c3 c4 c5 s1 s2 s3 s4 s5).1
      (Pocket.part11 z1 z2 z3 z4 z5 z6 z7 z8 z9 z10 z11 c1' c2' c3' c4' c5' s1' s2' s3' s4' s5').1 224 21 ∧
    NearC A M h (part11 t1 t2 t3 t4 t5 t6 t7 t8 t9 t10 t11 c1 c2 c3 c4 c5 s1 s2 s3 s4 s5).2
      (Pocket.part11 z1 z2 z3 z4 z5 z6 z7 z8 z9 z10 z11 c1' c2' c3' c4' c5' s1' s2' s3' s4' s5').2 224 21 := by
  have ca := (((((n1.stepC E n2 hc1 (by linarith)).stepC E n3 hc2 (by linarith)).stepC E n4 hc3 (by linarith)).stepC
    E n5 hc4 (by linarith)).stepC E n6 hc5 (by linarith)).mono E (κ' := 105) (m' := 11) (by norm_num) (by norm_num)
  have cb : NearC A M h ⟨-(s1 * t11.im + s2 * t10.im + s3 * t9.im + s4 * t8.im + s5 * t7.im),
        s1 * t11.re + s2 * t10.re + s3 * t9.re + s4 * t8.re + s5 * t7.re⟩
      ⟨-(s1' * z11.im + s2' * z10.im + s3' * z9.im + s4' * z8.im + s5' * z7.im),
        s1' * z11.re + s2' * z10.re + s3' * z9.re + s4' * z8.re + s5' * z7.re⟩ 97 10 :=
    ⟨(((((n11.im.first E hs1 (by linarith)).step E n10.im hs2 (by linarith)).step E n9.im hs3 (by linarith)).step E
        n8.im hs4 (by linarith)).step E n7.im hs5 (by linarith)).neg.mono E (by norm_num) (by norm_num),
      (((((n11.re.first E hs1 (by linarith)).step E n10.re hs2 (by linarith)).step E n9.re hs3 (by linarith)).step E
        n8.re hs4 (by linarith)).step E n7.re hs5 (by linarith)).mono E (by norm_num) (by norm_num)⟩
  exact ⟨(ca.add E cb (by linarith)).mono E (by norm_num) (by norm_num),
    (ca.sub E cb (by linarith)).mono E (by norm_num) (by norm_num)⟩

theorem core11_near (E : Env A M h b) (H : LitsOk A h L) (hb : 48 * (11 : ℕ) ^ 2 ≤ b)
    (hx : ∀ j, j < 11 → NearC A M h (x j) (z j) 0 1)
    {j : ℕ} (hj : j < 11) : CoreNear A M h fwd 11 (core11 L fwd x j) z j := by
  push_cast at hb
  have h0 := hx 0 (by norm_num)
  have S : ∀ {i k}, i < 11 → k < 11 → NearC A M h (x i + x k) (z i + z k) 3 2 := fun hi hk =>
    ((hx _ hi).add E (hx _ hk) (by linarith)).mono E (by norm_num) (by norm_num)
  have D : ∀ {i k}, i < 11 → k < 11 → NearC A M h (x i - x k) (z i - z k) 3 2 := fun hi hk =>
    ((hx _ hi).sub E (hx _ hk) (by linarith)).mono E (by norm_num) (by norm_num)
  have t2 := S (i := 1) (k := 10) (by norm_num) (by norm_num)
  have t11 := D (i := 1) (k := 10) (by norm_num) (by norm_num)
  have t3 := S (i := 2) (k := 9) (by norm_num) (by norm_num)
  have t10 := D (i := 2) (k := 9) (by norm_num) (by norm_num)
  have t4 := S (i := 3) (k := 8) (by norm_num) (by norm_num)
  have t9 := D (i := 3) (k := 8) (by norm_num) (by norm_num)
  have t5 := S (i := 4) (k := 7) (by norm_num) (by norm_num)
  have t8 := D (i := 4) (k := 7) (by norm_num) (by norm_num)
  have t6 := S (i := 5) (k := 6) (by norm_num) (by norm_num)
  have t7 := D (i := 5) (k := 6) (by norm_num) (by norm_num)
  have c : ∀ {j}, 0 < j → 2 * j < 11 → Const A h (L.cos 11 j) (cR 11 j) := fun g1 g2 => H.c (by norm_num) g1 g2
  have s : ∀ {j}, 0 < j → 2 * j < 11 → Const A h (L.tw fwd 11 j) (cI fwd 11 j) := fun g1 g2 =>
    H.s fwd (by norm_num) g1 g2
  have c1 := c (j := 1) (by norm_num) (by norm_num)
  have c2 := c (j := 2) (by norm_num) (by norm_num)
  have c3 := c (j := 3) (by norm_num) (by norm_num)
  have c4 := c (j := 4) (by norm_num) (by norm_num)
  have c5 := c (j := 5) (by norm_num) (by norm_num)
  have s1 := s (j := 1) (by norm_num) (by norm_num)
  have s2 := s (j := 2) (by norm_num) (by norm_num)
  have s3 := s (j := 3) (by norm_num) (by norm_num)
  have s4 := s (j := 4) (by norm_num) (by norm_num)
  have s5 := s (j := 5) (by norm_num) (by norm_num)
  have hb' : 5000 ≤ b := by linarith
  interval_cases j
  · exact CoreNear.of (Pocket.bf11_0 fwd z) (⟨((((h0.re.plus E t2.re (by linarith)).plus E t3.re (by linarith)).plus E t4.re (by linarith)).plus E
          t5.re (by linarith)).plus E t6.re (by linarith),
        ((((h0.im.plus E t2.im (by linarith)).plus E t3.im (by linarith)).plus E t4.im (by linarith)).plus E
          t5.im (by linarith)).plus E t6.im (by linarith)⟩) (by norm_num)
  · exact ⟨224, 21, by
      rw [← Pocket.bf11_1]
      exact (part11_near E hb' h0 t2 t3 t4 t5 t6 t7 t8 t9 t10 t11 c1 c2 c3 c4 c5 s1 s2 s3 s4 s5).1, by norm_num⟩
  · exact ⟨224, 21, by
      rw [← Pocket.bf11_2]
      exact (part11_near E hb' h0 t2 t3 t4 t5 t6 t7 t8 t9 t10 t11 c2 c4 c5 c3 c1 s2 s4 s5.neg s3.neg s1.neg).1,
      by norm_num⟩
  · exact ⟨224, 21, by
      rw [← Pocket.bf11_3]
      exact (part11_near E hb' h0 t2 t3 t4 t5 t6 t7 t8 t9 t10 t11 c3 c5 c2 c1 c4 s3 s5.neg s2.neg s1 s4).1,
      by norm_num⟩
  · exact ⟨224, 21, by
      rw [← Pocket.bf11_4]
      exact (part11_near E hb' h0 t2 t3 t4 t5 t6 t7 t8 t9 t10 t11 c4 c3 c1 c5 c2 s4 s3.neg s1 s5 s2.neg).1,
      by norm_num⟩
  · exact ⟨224, 21, by
      rw [← Pocket.bf11_5]
      exact (part11_near E hb' h0 t2 t3 t4 t5 t6 t7 t8 t9 t10 t11 c5 c1 c4 c2 c3 s5 s1.neg s4 s2.neg s3).1,
      by norm_num⟩
  · exact ⟨224, 21, by
      rw [← Pocket.bf11_6]
      exact (part11_near E hb' h0 t2 t3 t4 t5 t6 t7 t8 t9 t10 t11 c5 c1 c4 c2 c3 s5 s1.neg s4 s2.neg s3).2,
      by norm_num⟩
  · exact ⟨224, 21, by
      rw [← Pocket.bf11_7]
      exact (part11_near E hb' h0 t2 t3 t4 t5 t6 t7 t8 t9 t10 t11 c4 c3 c1 c5 c2 s4 s3.neg s1 s5 s2.neg).2,
      by norm_num⟩
  · exact ⟨224, 21, by
      rw [← Pocket.bf11_8]
      exact (part11_near E hb' h0 t2 t3 t4 t5 t6 t7 t8 t9 t10 t11 c3 c5 c2 c1 c4 s3 s5.neg s2.neg s1 s4).2,
      by norm_num⟩
  · exact ⟨224, 21, by
      rw [← Pocket.bf11_9]
      exact (part11_near E hb' h0 t2 t3 t4 t5 t6 t7 t8 t9 t10 t11 c2 c4 c5 c3 c1 s2 s4 s5.neg s3.neg s1.neg).2,
      by norm_num⟩
  · exact ⟨224, 21, by
      rw [← Pocket.bf11_10]
      exact (part11_near E hb' h0 t2 t3 t4 t5 t6 t7 t8 t9 t10 t11 c1 c2 c3 c4 c5 s1 s2 s3 s4 s5).2, by norm_num⟩

end Verif.PocketF
