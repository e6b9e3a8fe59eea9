import Verif.Lemmas.PocketCores

/-! # Rounding errors of the butterfly with an arbitrary prime radix -/

set_option linter.unusedSimpArgs false
set_option linter.unusedSectionVars false
set_option linter.unusedVariables false

namespace Verif.PocketF
open Pocket (cR cI w tab ld_tab stepWal_ok stepWal hcol pcol qcol ld)

variable {F : Type} [Zero F] [Add F] [Sub F] [Mul F] [Fma F] [Neg F]
variable {A : FloatArithNeg F} {M h b : ℝ} {x : ℕ → Cx F} {z : ℕ → ℂ} {fwd : Bool} {p q l : ℕ}

theorem gfold_near (E : Env A M h b) (hb : 3 ≤ b) (hx : ∀ j, j < p → NearC A M h (x j) (z j) 0 1) {c : ℕ}
    (h0 : 0 < c) (hc : c < p) : NearC A M h (gfold p x c) (hcol p z c) 3 2 := by
  unfold gfold hcol
  have e0 : ¬ c = 0 := by omega
  simp only [if_neg e0]
  split
  · exact ((hx c hc).add E (hx (p - c) (by omega)) (by linarith)).mono E (by norm_num) (by norm_num)
  · exact ((hx (p - c) (by omega)).sub E (hx c hc) (by linarith)).mono E (by norm_num) (by norm_num)

theorem gzero_near (E : Env A M h b) (hpq : p = 2 * q + 1) (h2 : 2 ≤ q) (hb : 48 * (p : ℝ) ^ 2 ≤ b)
    (hx : ∀ j, j < p → NearC A M h (x j) (z j) 0 1) :
    ∃ y, gzero p (gfold p x) = .ok y ∧ CoreNear A M h fwd p y z 0 := by
  have hp : (p : ℝ) = 2 * q + 1 := by rw [hpq]; push_cast; ring
  have hq : (2 : ℝ) ≤ q := by exact_mod_cast h2
  have hb3 : 3 ≤ b := by nlinarith
  unfold gzero
  rw [show (p + 1) / 2 - 1 = q by omega]
  have key := forN_inv (body := fun (j0 : ℕ) (tmp : Cx F) => (.ok (tmp + gfold p x (j0 + 1)) : Out (Cx F)))
    (fun j s => NearC A M h s (hcol p z 0 + ∑ m ∈ Finset.range j, hcol p z (m + 1)) (j * (p + 6)) (1 + 2 * j)) q
    (gfold p x 0) (by
      have := hx 0 (by omega)
      simpa [gfold, hcol] using this)
  replace key := key (by
    intro k s hk hs
    refine ⟨_, rfl, ?_⟩
    have g := gfold_near E hb3 hx (c := k + 1) (by omega) (by omega)
    have hk' : ((k : ℝ) + 1) ≤ q := by exact_mod_cast hk
    have hk0 : (0 : ℝ) ≤ k := by positivity
    rw [Finset.sum_range_succ, ← add_assoc]
    have e1 : (k : ℝ) * (p + 6) ≤ q * (p + 6) := by
      apply mul_le_mul_of_nonneg_right (by linarith)
      positivity
    have e2 : (q : ℝ) * (p + 6) ≤ 24 * (p : ℝ) ^ 2 := by
      rw [hp]; nlinarith
    refine (hs.add E g ?_).mono E ?_ ?_
    · have : (p : ℝ) ≤ (p : ℝ) ^ 2 := by rw [hp]; nlinarith
      nlinarith
    · push_cast
      nlinarith
    · push_cast
      linarith)
  obtain ⟨y, e, n⟩ := key
  refine ⟨y, e, CoreNear.of (Pocket.col_zero hpq fwd z) n ?_⟩
  rw [hp]
  nlinarith

theorem pcol_re_succ {j : ℕ} (hj : 0 < j) : (pcol p z l (j + 1)).re = (pcol p z l j).re + (hcol p z j).re * cR p (l * j) ∧
    (pcol p z l (j + 1)).im = (pcol p z l j).im + (hcol p z j).im * cR p (l * j) := by
  rw [Pocket.pcol_succ hj]
  simp

theorem qcol_re_succ {j : ℕ} (hj : 0 < j) :
    (qcol fwd p z l (j + 1)).re = (qcol fwd p z l j).re - (hcol p z (p - j)).im * cI fwd p (l * j) ∧
    (qcol fwd p z l (j + 1)).im = (qcol fwd p z l j).im + (hcol p z (p - j)).re * cI fwd p (l * j) := by
  rw [Pocket.qcol_succ hj]
  simp
  constructor <;> ring

/-- the two sums when the terms below `j` have been added -/
structure GInv (A : FloatArithNeg F) (M h : ℝ) (fwd : Bool) (p l : ℕ) (z : ℕ → ℂ) (j : ℕ) (a b : Cx F) : Prop where
  a : NearC A M h a (pcol p z l j) (((j : ℝ) - 1) * (p + 22)) (2 * j - 1)
  b : NearC A M h b (qcol fwd p z l j) (((j : ℝ) - 1) * (p + 22)) (2 * j - 2)

section
variable {W : ℕ → Cx F}

theorem ginv_start (E : Env A M h b) (hpq : p = 2 * q + 1) (h2 : 2 ≤ q) (hb : 48 * (p : ℝ) ^ 2 ≤ b)
    (hx : ∀ j, j < p → NearC A M h (x j) (z j) 0 1) {w1 w2 : Cx F} (hw1 : ConstC A h w1 (w fwd p l))
    (hw2 : ConstC A h w2 (w fwd p (2 * l))) :
    GInv A M h fwd p l z 3
      ⟨(gfold p x 0).re + w1.re * (gfold p x 1).re + w2.re * (gfold p x 2).re,
        (gfold p x 0).im + w1.re * (gfold p x 1).im + w2.re * (gfold p x 2).im⟩
      ⟨-w1.im * (gfold p x (p - 1)).im - w2.im * (gfold p x (p - 2)).im,
        w1.im * (gfold p x (p - 1)).re + w2.im * (gfold p x (p - 2)).re⟩ := by
  have hp : (p : ℝ) = 2 * q + 1 := by rw [hpq]; push_cast; ring
  have hq : (2 : ℝ) ≤ q := by exact_mod_cast h2
  have hb3 : 1000 ≤ b := by nlinarith
  have n0 : NearC A M h (gfold p x 0) (hcol p z 0) 0 1 := by
    have := hx 0 (by omega)
    simpa [gfold, hcol] using this
  have n1 := gfold_near E (by linarith) hx (c := 1) (by omega) (by omega)
  have n2 := gfold_near E (by linarith) hx (c := 2) (by omega) (by omega)
  have g1 := gfold_near E (by linarith) hx (c := p - 1) (by omega) (by omega)
  have g2 := gfold_near E (by linarith) hx (c := p - 2) (by omega) (by omega)
  have ep := Pocket.pcol_three (ip := p) (l := l) (x := z)
  have eq := Pocket.qcol_three (ip := p) (l := l) (x := z) (fwd := fwd)
  have r1 : (pcol p z l 3).re = (hcol p z 0).re + cR p l * (hcol p z 1).re + cR p (2 * l) * (hcol p z 2).re := by
    rw [ep]; simp; ring
  have r2 : (pcol p z l 3).im = (hcol p z 0).im + cR p l * (hcol p z 1).im + cR p (2 * l) * (hcol p z 2).im := by
    rw [ep]; simp; ring
  have r3 : (qcol fwd p z l 3).re
      = -cI fwd p l * (hcol p z (p - 1)).im - cI fwd p (2 * l) * (hcol p z (p - 2)).im := by
    rw [eq]; simp; ring
  have r4 : (qcol fwd p z l 3).im
      = cI fwd p l * (hcol p z (p - 1)).re + cI fwd p (2 * l) * (hcol p z (p - 2)).re := by
    rw [eq]; simp
  have c1 : Const A h w1.re (cR p l) := hw1.re
  have c2 : Const A h w2.re (cR p (2 * l)) := hw2.re
  have s1 : Const A h w1.im (cI fwd p l) := hw1.im
  have s2 : Const A h w2.im (cI fwd p (2 * l)) := hw2.im
  have k1 : (36 : ℝ) ≤ (((3 : ℕ) : ℝ) - 1) * (p + 22) := by push_cast; rw [hp]; linarith
  have m1 : (5 : ℝ) ≤ 2 * ((3 : ℕ) : ℝ) - 1 := by norm_num
  have m2 : (4 : ℝ) ≤ 2 * ((3 : ℕ) : ℝ) - 2 := by norm_num
  constructor
  · constructor
    · rw [r1]
      exact ((n0.re.step E n1.re c1 (by linarith)).step E n2.re c2 (by linarith)).mono E (by linarith) (by linarith)
    · rw [r2]
      exact ((n0.im.step E n1.im c1 (by linarith)).step E n2.im c2 (by linarith)).mono E (by linarith) (by linarith)
  · constructor
    · rw [r3]
      exact ((g1.im.first E s1.neg (by linarith)).sub E (g2.im.first E s2 (by linarith)) (by linarith)).mono E
        (by linarith) (by linarith)
    · rw [r4]
      exact ((g1.re.first E s1 (by linarith)).step E g2.re s2 (by linarith)).mono E (by linarith) (by linarith)

/-- the number of rounding errors never exceeds what the hypotheses allow -/
theorem ginv_room (hpq : p = 2 * q + 1) (h2 : 2 ≤ q) (hb : 48 * (p : ℝ) ^ 2 ≤ b) {j : ℕ} (hj : j ≤ q) :
    ((j : ℝ) - 1) * (p + 22) + 2 * j + 100 ≤ b ∧ 2 * (j : ℝ) + 1 ≤ p ∧ 300 ≤ b := by
  have hp : (p : ℝ) = 2 * q + 1 := by rw [hpq]; push_cast; ring
  have hq : (2 : ℝ) ≤ q := by exact_mod_cast h2
  have hj' : (j : ℝ) ≤ q := by exact_mod_cast hj
  have e1 : ((j : ℝ) - 1) * (p + 22) ≤ q * (p + 22) := by
    apply mul_le_mul_of_nonneg_right (by linarith)
    positivity
  rw [hp] at e1 hb ⊢
  refine ⟨?_, by linarith, by nlinarith⟩
  nlinarith

theorem ginv_one (E : Env A M h b) (hpq : p = 2 * q + 1) (h2 : 2 ≤ q) (hb : 48 * (p : ℝ) ^ 2 ≤ b)
    (hx : ∀ j, j < p → NearC A M h (x j) (z j) 0 1) {j : ℕ} (hj0 : 1 ≤ j) (hj : j ≤ q) {a d w1 : Cx F}
    (I : GInv A M h fwd p l z j a d) (hw1 : ConstC A h w1 (w fwd p (l * j))) :
    GInv A M h fwd p l z (j + 1)
      ⟨a.re + (gfold p x j).re * w1.re, a.im + (gfold p x j).im * w1.re⟩
      ⟨d.re - (gfold p x (p - j)).im * w1.im, d.im + (gfold p x (p - j)).re * w1.im⟩ := by
  obtain ⟨room, hjp, hb3⟩ := ginv_room hpq h2 hb hj
  have n1 := gfold_near E (by linarith) hx (c := j) (by omega) (by omega)
  have g1 := gfold_near E (by linarith) hx (c := p - j) (by omega) (by omega)
  obtain ⟨r1, r2⟩ := pcol_re_succ (p := p) (z := z) (l := l) (j := j) (by omega)
  obtain ⟨r3, r4⟩ := qcol_re_succ (fwd := fwd) (p := p) (z := z) (l := l) (j := j) (by omega)
  have c1 : Const A h w1.re (cR p (l * j)) := hw1.re
  have s1 : Const A h w1.im (cI fwd p (l * j)) := hw1.im
  have hj1 : (1 : ℝ) ≤ j := by exact_mod_cast hj0
  have k1 : ((j + 1 : ℕ) : ℝ) = j + 1 := by push_cast; ring
  have e : ((j : ℝ) + 1 - 1) * (p + 22) = ((j : ℝ) - 1) * (p + 22) + (p + 22) := by ring
  constructor
  · constructor
    · rw [r1, k1, e]
      exact (I.a.re.add E (n1.re.mul E c1 (by linarith)) (by linarith)).mono E (by linarith) (by linarith)
    · rw [r2, k1, e]
      exact (I.a.im.add E (n1.im.mul E c1 (by linarith)) (by linarith)).mono E (by linarith) (by linarith)
  · constructor
    · rw [r3, k1, e]
      exact (I.b.re.sub E (g1.im.mul E s1 (by linarith)) (by linarith)).mono E (by linarith) (by linarith)
    · rw [r4, k1, e]
      exact (I.b.im.add E (g1.re.mul E s1 (by linarith)) (by linarith)).mono E (by linarith) (by linarith)

theorem ginv_two (E : Env A M h b) (hpq : p = 2 * q + 1) (h2 : 2 ≤ q) (hb : 48 * (p : ℝ) ^ 2 ≤ b)
    (hx : ∀ j, j < p → NearC A M h (x j) (z j) 0 1) {j : ℕ} (hj0 : 1 ≤ j) (hj : j + 1 ≤ q) {a d w1 w2 : Cx F}
    (I : GInv A M h fwd p l z j a d) (hw1 : ConstC A h w1 (w fwd p (l * j)))
    (hw2 : ConstC A h w2 (w fwd p (l * (j + 1)))) :
    GInv A M h fwd p l z (j + 2)
      ⟨a.re + ((gfold p x j).re * w1.re + (gfold p x (j + 1)).re * w2.re),
        a.im + ((gfold p x j).im * w1.re + (gfold p x (j + 1)).im * w2.re)⟩
      ⟨d.re - ((gfold p x (p - j)).im * w1.im + (gfold p x (p - j - 1)).im * w2.im),
        d.im + ((gfold p x (p - j)).re * w1.im + (gfold p x (p - j - 1)).re * w2.im)⟩ := by
  obtain ⟨room, hjp, hb3⟩ := ginv_room hpq h2 hb (show j ≤ q by omega)
  have n1 := gfold_near E (by linarith) hx (c := j) (by omega) (by omega)
  have n2 := gfold_near E (by linarith) hx (c := j + 1) (by omega) (by omega)
  have g1 := gfold_near E (by linarith) hx (c := p - j) (by omega) (by omega)
  have g2 := gfold_near E (by linarith) hx (c := p - j - 1) (by omega) (by omega)
  obtain ⟨r1, r2⟩ := pcol_re_succ (p := p) (z := z) (l := l) (j := j) (by omega)
  obtain ⟨r3, r4⟩ := qcol_re_succ (fwd := fwd) (p := p) (z := z) (l := l) (j := j) (by omega)
  obtain ⟨t1, t2⟩ := pcol_re_succ (p := p) (z := z) (l := l) (j := j + 1) (by omega)
  obtain ⟨t3, t4⟩ := qcol_re_succ (fwd := fwd) (p := p) (z := z) (l := l) (j := j + 1) (by omega)
  rw [show p - (j + 1) = p - j - 1 by omega] at t3 t4
  have c1 : Const A h w1.re (cR p (l * j)) := hw1.re
  have s1 : Const A h w1.im (cI fwd p (l * j)) := hw1.im
  have c2 : Const A h w2.re (cR p (l * (j + 1))) := hw2.re
  have s2 : Const A h w2.im (cI fwd p (l * (j + 1))) := hw2.im
  have hj1 : (1 : ℝ) ≤ j := by exact_mod_cast hj0
  have k1 : ((j + 2 : ℕ) : ℝ) = j + 2 := by push_cast; ring
  have e : ((j : ℝ) + 2 - 1) * (p + 22) = ((j : ℝ) - 1) * (p + 22) + 2 * (p + 22) := by ring
  have mm : ∀ {u v c d : F} {r s e f : ℝ}, Near A M h u r 3 2 → Near A M h v s 3 2 → Const A h c e → Const A h d f →
      Near A M h (u * c + v * d) (r * e + s * f) 31 4 := fun nu nv nc nd =>
    ((nu.mul E nc (by linarith)).add E (nv.mul E nd (by linarith)) (by linarith)).mono E (by norm_num) (by norm_num)
  constructor
  · constructor
    · rw [show j + 2 = j + 1 + 1 from rfl, t1, r1, add_assoc]
      rw [show j + 1 + 1 = j + 2 from rfl, k1, e]
      exact (I.a.re.add E (mm n1.re n2.re c1 c2) (by linarith)).mono E (by linarith) (by linarith)
    · rw [show j + 2 = j + 1 + 1 from rfl, t2, r2, add_assoc]
      rw [show j + 1 + 1 = j + 2 from rfl, k1, e]
      exact (I.a.im.add E (mm n1.im n2.im c1 c2) (by linarith)).mono E (by linarith) (by linarith)
  · constructor
    · rw [show j + 2 = j + 1 + 1 from rfl, t3, r3, sub_sub]
      rw [show j + 1 + 1 = j + 2 from rfl, k1, e]
      exact (I.b.re.sub E (mm g1.im g2.im s1 s2) (by linarith)).mono E (by linarith) (by linarith)
    · rw [show j + 2 = j + 1 + 1 from rfl, t4, r4, add_assoc]
      rw [show j + 1 + 1 = j + 2 from rfl, k1, e]
      exact (I.b.im.add E (mm g1.re g2.re s1 s2) (by linarith)).mono E (by linarith) (by linarith)

theorem w_mod (fwd : Bool) (p m : ℕ) : w fwd p (m % p) = w fwd p m := by
  unfold w
  rw [← Pocket.cR_mod, ← Pocket.cI_mod]

theorem gpair_near (E : Env A M h b) (hpr : p.Prime) (hpq : p = 2 * q + 1) (h2 : 2 ≤ q) (hb : 48 * (p : ℝ) ^ 2 ≤ b)
    (hx : ∀ j, j < p → NearC A M h (x j) (z j) 0 1)
    (hW : ∀ i, 0 < i → i < p → ConstC A h (W i) (w fwd p i)) (hl0 : 0 < l) (hl : 2 * l < p) :
    ∃ a d, gpair p l (tab p W) (gfold p x) = .ok (a, d) ∧ GInv A M h fwd p l z (q + 1) a d := by
  have hWm : ∀ j, 0 < j → j < p → ConstC A h (W (l * j % p)) (w fwd p (l * j)) := by
    intro j h0 hj
    rw [← w_mod]
    apply hW _ _ (Nat.mod_lt _ hpr.pos)
    rcases Nat.eq_zero_or_pos (l * j % p) with e | e
    · rcases (Nat.Prime.dvd_mul hpr).mp (Nat.dvd_of_mod_eq_zero e) with g | g
      · exact absurd (Nat.le_of_dvd hl0 g) (by omega)
      · exact absurd (Nat.le_of_dvd h0 g) (by omega)
    · exact e
  unfold gpair
  have hph : (p + 1) / 2 = q + 1 := by omega
  simp only [hph]
  rw [ld_tab (by omega), Out.ok_bind, ld_tab (by omega), Out.ok_bind]
  have st := ginv_start (fwd := fwd) (l := l) E hpq h2 hb hx (hW l hl0 (by omega)) (hW (2 * l) (by omega) hl)
  let Inv : GCol F → Prop := fun s => 3 ≤ s.j ∧ s.j ≤ q + 1 ∧ s.jc = p - s.j ∧ s.iwal = l * (s.j - 1) % p ∧
    GInv A M h fwd p l z s.j s.a s.b
  obtain ⟨s0, hs0⟩ : ∃ s : GCol F, s = ⟨3, p - 3, 2 * l,
      ⟨(gfold p x 0).re + (W l).re * (gfold p x 1).re + (W (2 * l)).re * (gfold p x 2).re,
        (gfold p x 0).im + (W l).re * (gfold p x 1).im + (W (2 * l)).re * (gfold p x 2).im⟩,
      ⟨-(W l).im * (gfold p x (p - 1)).im - (W (2 * l)).im * (gfold p x (p - 2)).im,
        (W l).im * (gfold p x (p - 1)).re + (W (2 * l)).im * (gfold p x (p - 2)).re⟩⟩ := ⟨_, rfl⟩
  rw [← hs0]
  have i0 : Inv s0 := by
    subst hs0
    exact ⟨le_rfl, by simp only []; omega, rfl,
      by simp only []; rw [Nat.mul_comm, Nat.mod_eq_of_lt (by omega)], st⟩
  have hm0 : q + 1 - s0.j < p + 1 := by subst hs0; simp only []; omega
  obtain ⟨s1, e1, i1, -⟩ := whileN_measure (cond := fun s : GCol F => decide (s.j < q + 1 - 1))
    (body := fun s => do
      let iwal := stepWal p l s.iwal
      let xwal ← ld (tab p W) iwal
      let iwal := stepWal p l iwal
      let xwal2 ← ld (tab p W) iwal
      let hj := gfold p x s.j
      let hj1 := gfold p x (s.j + 1)
      let gj := gfold p x s.jc
      let gj1 := gfold p x (s.jc - 1)
      pure (⟨s.j + 2, s.jc - 2, iwal,
        ⟨s.a.re + (hj.re * xwal.re + hj1.re * xwal2.re), s.a.im + (hj.im * xwal.re + hj1.im * xwal2.re)⟩,
        ⟨s.b.re - (gj.im * xwal.im + gj1.im * xwal2.im), s.b.im + (gj.re * xwal.im + gj1.re * xwal2.im)⟩⟩ : GCol F))
    Inv (fun s => q + 1 - s.j) (by
    rintro ⟨j, jc, iwal, a, d⟩ ⟨a1, a2, a3, a4, a5⟩ hc
    simp only [] at a1 a2 a3 a4 a5
    simp only [decide_eq_true_eq] at hc
    subst a3 a4
    simp only []
    have b1 : stepWal p l (l * (j - 1) % p) = l * j % p := by
      have := stepWal_ok (l := l) (j := j - 1) hpr hl0 (by omega) (by omega) (by omega)
      rwa [Nat.sub_add_cancel (by omega)] at this
    rw [b1, stepWal_ok hpr hl0 (by omega) (by omega) (by omega), ld_tab (Nat.mod_lt _ hpr.pos), Out.ok_bind,
      ld_tab (Nat.mod_lt _ hpr.pos), Out.ok_bind]
    refine ⟨_, rfl, ⟨?_, ?_, ?_, ?_, ?_⟩, ?_⟩ <;> simp only []
    · omega
    · omega
    · omega
    · rw [show j + 2 - 1 = j + 1 by omega]
    · exact ginv_two E hpq h2 hb hx (by omega) (by omega) a5 (hWm j (by omega) (by omega))
        (hWm (j + 1) (by omega) (by omega))
    · omega) (p + 1) s0 hm0 i0
  rw [e1, Out.ok_bind]
  obtain ⟨s2, e2, i2, c2⟩ := whileN_measure (cond := fun s : GCol F => decide (s.j < q + 1))
    (body := fun s => do
      let iwal := stepWal p l s.iwal
      let xwal ← ld (tab p W) iwal
      let hj := gfold p x s.j
      let gj := gfold p x s.jc
      pure (⟨s.j + 1, s.jc - 1, iwal,
        ⟨s.a.re + hj.re * xwal.re, s.a.im + hj.im * xwal.re⟩,
        ⟨s.b.re - gj.im * xwal.im, s.b.im + gj.re * xwal.im⟩⟩ : GCol F))
    Inv (fun s => q + 1 - s.j) (by
    rintro ⟨j, jc, iwal, a, d⟩ ⟨a1, a2, a3, a4, a5⟩ hc
    simp only [] at a1 a2 a3 a4 a5
    simp only [decide_eq_true_eq] at hc
    subst a3 a4
    simp only []
    have b1 : stepWal p l (l * (j - 1) % p) = l * j % p := by
      have := stepWal_ok (l := l) (j := j - 1) hpr hl0 (by omega) (by omega) (by omega)
      rwa [Nat.sub_add_cancel (by omega)] at this
    rw [b1, ld_tab (Nat.mod_lt _ hpr.pos), Out.ok_bind]
    refine ⟨_, rfl, ⟨?_, ?_, ?_, ?_, ?_⟩, ?_⟩ <;> simp only []
    · omega
    · omega
    · omega
    · rw [show j + 1 - 1 = j by omega]
    · exact ginv_one E hpq h2 hb hx (by omega) (by omega) a5 (hWm j (by omega) (by omega))
    · omega) (p + 1) s1 (by obtain ⟨a1, a2, _⟩ := i1; omega) i1
  rw [e2, Out.ok_bind]
  obtain ⟨a1, a2, a3, a4, a5⟩ := i2
  have : s2.j = q + 1 := by
    simp only [decide_eq_false_iff_not] at c2
    omega
  rw [this] at a5
  exact ⟨s2.a, s2.b, rfl, a5⟩

theorem coreG_near (E : Env A M h b) (hpr : p.Prime) (hp5 : 5 ≤ p) (hb : 48 * (p : ℝ) ^ 2 ≤ b)
    (hx : ∀ j, j < p → NearC A M h (x j) (z j) 0 1)
    (hW : ∀ i, 0 < i → i < p → ConstC A h (W i) (w fwd p i)) {j : ℕ} (hj : j < p) :
    ∃ y, coreG (tab p W) p x j = .ok y ∧ CoreNear A M h fwd p y z j := by
  obtain ⟨q, hpq⟩ : ∃ q, p = 2 * q + 1 := by
    rcases hpr.eq_two_or_odd' with e | ⟨q, e⟩
    · omega
    · exact ⟨q, e⟩
  have h2 : 2 ≤ q := by omega
  have hp : (p : ℝ) = 2 * q + 1 := by rw [hpq]; push_cast; ring
  have hq : (2 : ℝ) ≤ q := by exact_mod_cast h2
  have k1 : ((q + 1 : ℕ) : ℝ) = q + 1 := by push_cast; ring
  have hroom : ((q + 1 : ℕ) - 1 : ℝ) * (p + 22) + ((q + 1 : ℕ) - 1 : ℝ) * (p + 22) + (2 * (q + 1 : ℕ) - 1 : ℝ)
      + (2 * (q + 1 : ℕ) - 2 : ℝ) + 1 ≤ b := by
    rw [hp] at hb
    rw [k1, hp]
    nlinarith
  have hnum : 2 * (((q + 1 : ℕ) - 1 : ℝ) * (p + 22) + ((q + 1 : ℕ) - 1 : ℝ) * (p + 22) + (2 * (q + 1 : ℕ) - 1 : ℝ)
      + (2 * (q + 1 : ℕ) - 2 : ℝ) + 1) + 8 * ((2 * (q + 1 : ℕ) - 1 : ℝ) + (2 * (q + 1 : ℕ) - 2 : ℝ)) + 9
      ≤ 16 * (p : ℝ) ^ 2 := by
    rw [k1, hp]
    nlinarith
  unfold coreG
  simp only []
  by_cases e0 : j = 0
  · rw [if_pos e0, e0]
    exact gzero_near E hpq h2 hb hx
  rw [if_neg e0]
  by_cases e1 : 2 * j < p
  · rw [if_pos e1]
    obtain ⟨a, d, e, I⟩ := gpair_near E hpr hpq h2 hb hx hW (l := j) (by omega) e1
    rw [e, Out.ok_bind]
    exact ⟨_, rfl, CoreNear.of (Pocket.col_add hpq fwd z) (I.a.add E I.b hroom) hnum⟩
  · rw [if_neg e1]
    obtain ⟨a, d, e, I⟩ := gpair_near E hpr hpq h2 hb hx hW (l := p - j) (by omega) (by omega)
    rw [e, Out.ok_bind]
    have := Pocket.col_sub (l := p - j) hpq (by omega) fwd z
    rw [show p - (p - j) = j by omega] at this
    exact ⟨_, rfl, CoreNear.of this (I.a.sub E I.b hroom) hnum⟩

end

end Verif.PocketF
