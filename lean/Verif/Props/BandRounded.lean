import Verif.Props.HighpassRounded

/-!
# Property C101: the windowed band pass and band stop designed in floating point
-/

set_option linter.unusedVariables false
set_option linter.style.longLine false
set_option linter.unusedSectionVars false

namespace Verif

section
variable {F : Type} [Zero F] [Add F] [Sub F] [Mul F] [Div F] [FloatFun F]

/-- the cosine by which tap `i` is multiplied, as computed -/
def shiftCos (pi : F) (cos : F → F) (n : ℕ) (f : F) (i : ℕ) : F :=
  cos ((FloatFun.ofSize (min i (n - 1 - i)) - FloatFun.ofSize (n / 2)) * (pi * f))

/-- the shift of a filter in place, over any type with arithmetic -/
theorem shiftResponseF_writes (pi : F) (cos : F → F) (e : Exec) {mem m0 : List F} {out : Span} (hodd : out.size % 2 = 1) (hm : out.Within mem)
    {h : ℕ → F} (hww : Writes mem m0 out h) (f : F) :
    ∃ m, shiftResponseF pi cos e m0 out out f = .ok m ∧
      Writes mem m out (fun i => (if i = out.size / 2 then h i else shiftCos pi cos out.size f i * h i) * FloatFun.ofSize 2) := by
  have hm0 := hm
  have hl0 := hww.length
  unfold Span.Within at hm
  obtain ⟨n, hn⟩ : ∃ n, n = out.size := ⟨_, rfl⟩
  rw [← hn] at hodd hm
  have key := forN_inv
    (body := fun i mem => do
      let a ← rd mem ((out.pos + i : Nat) : Int)
      let mem ← wr mem ((out.pos + i : Nat) : Int) (cos ((FloatFun.ofSize i - FloatFun.ofSize (n / 2)) * (pi * f)) * a)
      let b ← rd mem ((out.pos + (n - i - 1) : Nat) : Int)
      wr mem ((out.pos + (n - i - 1) : Nat) : Int) (cos ((FloatFun.ofSize i - FloatFun.ofSize (n / 2)) * (pi * f)) * b))
    (fun k (m : List F) => m.length = m0.length ∧ ∀ j, m[j]? =
      if out.pos ≤ j ∧ j < out.pos + n ∧ (j < out.pos + k ∨ out.pos + n - k ≤ j)
      then some (shiftCos pi cos n f (j - out.pos) * h (j - out.pos)) else m0[j]?) (n / 2) m0
    ⟨rfl, fun j => by rw [if_neg (by omega)]⟩
  replace key := key (by
    intro i m hi ⟨hl, hx⟩
    have hr1 : rd m ((out.pos + i : ℕ) : ℤ) = .ok (h i) := by
      apply rd_some
      rw [hx, if_neg (by omega), hww.written i (by omega)]
    obtain ⟨m1, ew, hl', hw'⟩ := wr_upd (mem := m) (p := out.pos + i) (by omega)
      (cos ((FloatFun.ofSize i - FloatFun.ofSize (n / 2)) * (pi * f)) * h i)
    have hr2 : rd m1 ((out.pos + (n - i - 1) : ℕ) : ℤ) = .ok (h (n - i - 1)) := by
      apply rd_some
      rw [hw', if_neg (by omega), hx, if_neg (by omega), hww.written _ (by omega)]
    obtain ⟨m2, ew2, hl2, hw2⟩ := wr_upd (mem := m1) (p := out.pos + (n - i - 1)) (by omega)
      (cos ((FloatFun.ofSize i - FloatFun.ofSize (n / 2)) * (pi * f)) * h (n - i - 1))
    refine ⟨m2, ?_, by omega, fun j => ?_⟩
    · rw [hr1, Out.ok_bind, ew, Out.ok_bind, hr2, Out.ok_bind, ew2]
    · rw [hw2, hw', hx]
      by_cases hj2 : j = out.pos + (n - i - 1)
      · subst hj2
        rw [if_pos rfl, if_pos (by omega), Nat.add_sub_cancel_left, shiftCos, min_eq_right (by omega),
          show n - 1 - (n - i - 1) = i by omega]
      · rw [if_neg hj2]
        by_cases hj : j = out.pos + i
        · subst hj
          rw [if_pos rfl, if_pos (by omega), Nat.add_sub_cancel_left, shiftCos, min_eq_left (by omega)]
        · rw [if_neg hj]
          by_cases h1 : out.pos ≤ j ∧ j < out.pos + n ∧ (j < out.pos + i ∨ out.pos + n - i ≤ j)
          · rw [if_pos h1, if_pos (by omega)]
          · rw [if_neg h1, if_neg (by omega)])
  obtain ⟨m1, e1, hl, hx⟩ := key
  have hW : Writes mem m1 out (fun i => if i = n / 2 then h i else shiftCos pi cos n f i * h i) := by
    refine ⟨by omega, fun t ht => ?_, fun j hj => ?_⟩
    · rw [hx]
      by_cases hmid : t = n / 2
      · rw [if_neg (by omega), hww.written t ht]
        simp only [if_pos hmid]
      · rw [if_pos (by omega), Nat.add_sub_cancel_left]
        simp only [if_neg hmid]
    · rw [hx, if_neg (by omega), hww.rest j hj]
  obtain ⟨m2, e2, h2⟩ := compoundVS_writes e .mul (FloatFun.ofSize 2) hm0 hW
  refine ⟨m2, ?_, h2.congr fun i _ => ?_⟩
  · unfold shiftResponseF
    rw [← hn]
    simp only []
    rw [cassert_true trivial, Out.ok_bind]
    refine (congrArg (· >>= _) e1).trans ?_
    rw [Out.ok_bind, e2]
  · rw [← hn]; rfl

theorem shiftCos_mirror (pi : F) (cos : F → F) {n : ℕ} (f : F) {i : ℕ} (hi : i < n) :
    shiftCos pi cos n f (n - 1 - i) = shiftCos pi cos n f i := by
  unfold shiftCos
  rw [show n - 1 - (n - 1 - i) = i by omega, min_comm]

/-- **C101** the band pass is the computed low pass of half the band width, each tap other than the middle one times the cosine as
computed, and all taps doubled; and for every symmetric window its taps are symmetric, bit for bit. -/
theorem C101_bandpass_symmetric (pi : F) (sin cos : F → F) (e : Exec) (c : KernOf F) (hc : c.Valid) (mem : List F) (out : Span)
    (hodd : out.size % 2 = 1) (hm : out.Within mem) (lower upper : F) (window : List F → Span → Out (List F)) {m0 : List F} {w : ℕ → F}
    (hwin : window mem out = .ok m0) (hww : Writes mem m0 out w) (hsym : ∀ i, i < out.size → w (out.size - 1 - i) = w i) :
    ∃ m ml g h, designWindowedBandpassF pi sin cos e c mem out lower upper window = .ok m ∧ Writes mem m out g ∧
      kernelWindowedLowpassF pi sin e c mem out ((upper - lower) / FloatFun.ofSize 2) window = .ok ml ∧ Writes mem ml out h ∧
      (∀ i, i < out.size → g i = (if i = out.size / 2 then h i else
        cos ((FloatFun.ofSize (min i (out.size - 1 - i)) - FloatFun.ofSize (out.size / 2)) * (pi * ((upper + lower) / FloatFun.ofSize 2))) * h i) *
          FloatFun.ofSize 2) ∧
      ∀ i, i < out.size → g (out.size - 1 - i) = g i := by
  obtain ⟨m1, h, e1, h1, h2⟩ := C99_symmetric pi sin e c hc mem out hodd hm ((upper - lower) / FloatFun.ofSize 2) window hwin hww hsym
  obtain ⟨m2, e2, h3⟩ := shiftResponseF_writes pi cos e hodd hm h1 ((upper + lower) / FloatFun.ofSize 2)
  refine ⟨m2, m1, _, h, by rw [designWindowedBandpassF, e1, Out.ok_bind, e2], h3, e1, h1, fun i _ => rfl, fun i hi => ?_⟩
  simp only [h2 i hi, shiftCos_mirror pi cos _ hi]
  by_cases hi2 : i = out.size / 2
  · rw [if_pos hi2, if_pos (by omega)]
  · rw [if_neg hi2, if_neg (by omega)]

/-- **C101** the taps of the band stop are symmetric, bit for bit, for every symmetric window. -/
theorem C101_bandstop_symmetric (pi mone : F) (sin cos : F → F) (e : Exec) (c : KernOf F) (hc : c.Valid) (mem : List F) (out : Span)
    (hodd : out.size % 2 = 1) (hm : out.Within mem) (lower upper : F) (window : List F → Span → Out (List F)) {m0 : List F} {w : ℕ → F}
    (hwin : window mem out = .ok m0) (hww : Writes mem m0 out w) (hsym : ∀ i, i < out.size → w (out.size - 1 - i) = w i) :
    ∃ m mp g p, designWindowedBandstopF pi mone sin cos e c mem out lower upper window = .ok m ∧ Writes mem m out g ∧
      designWindowedBandpassF pi sin cos e c mem out lower upper window = .ok mp ∧ Writes mem mp out p ∧
      (∀ i, i < out.size → g i = if i = out.size / 2 then p i * mone + FloatFun.ofSize 1 else p i * mone) ∧
      ∀ i, i < out.size → g (out.size - 1 - i) = g i := by
  obtain ⟨m1, -, p, -, e1, h1, -, -, -, h2⟩ := C101_bandpass_symmetric pi sin cos e c hc mem out hodd hm lower upper window hwin hww hsym
  obtain ⟨m2, e2, h3⟩ := complementaryResponseF_writes mone e hodd hm h1
  refine ⟨m2, m1, _, p, by rw [designWindowedBandstopF, e1, Out.ok_bind, e2], h3, e1, h1, fun i _ => rfl, fun i hi => ?_⟩
  simp only [h2 i hi]
  by_cases hi2 : i = out.size / 2
  · rw [if_pos hi2, if_pos (by omega)]
  · rw [if_neg hi2, if_neg (by omega)]

end

private theorem shift_arg {u t n d0 f p s d : ℝ} (hu0 : 0 ≤ u) (hu : u ≤ 1 / 1000) (ht0 : 0 ≤ t) (ht : t ≤ u) (hn : 1 ≤ n) (hd0 : |d0| ≤ n / 2)
    (hf : |f| ≤ 1) (hp : |p - Real.pi| ≤ 2 * u * Real.pi) (hs : |s - p * f| ≤ u * |p * f| + t) (hd : |d - d0| ≤ u * |d0|) :
    |p * f| ≤ 5 ∧ |s| ≤ 5 ∧ |d| ≤ n ∧ ∀ x, |x - d * s| ≤ u * |d * s| + t → |x - d0 * (Real.pi * f)| ≤ 12 * (n * u) := by
  have hpi := Real.pi_pos
  have hpi4 := Real.pi_le_four
  have hup : u * Real.pi ≤ 4 * u := by nlinarith
  have hp8 : |p - Real.pi| ≤ 8 * u := by linarith
  have hpb : |p| ≤ 4008 / 1000 := by
    have := abs_add_le (p - Real.pi) Real.pi
    rw [sub_add_cancel, abs_of_pos hpi] at this
    linarith
  have hpf : |p * f| ≤ 4008 / 1000 := by
    rw [abs_mul]
    have := mul_le_mul hpb hf (abs_nonneg _) (by norm_num)
    linarith
  have hpf2 : |p * f - Real.pi * f| ≤ 8 * u := by
    rw [← sub_mul, abs_mul]
    have := mul_le_mul hp8 hf (abs_nonneg _) (by positivity)
    linarith
  have hπf : |Real.pi * f| ≤ 4 := by
    rw [abs_mul, abs_of_pos hpi]
    have := mul_le_mul hpi4 hf (abs_nonneg _) (by norm_num)
    linarith
  have h1 := mul_le_mul_of_nonneg_left hpf hu0
  have hsπ : |s - Real.pi * f| ≤ 1301 / 100 * u := by
    have := abs_sub_le s (p * f) (Real.pi * f)
    linarith
  have hsb : |s| ≤ 402 / 100 := by
    have := abs_add_le (s - Real.pi * f) (Real.pi * f)
    rw [sub_add_cancel] at this
    linarith
  have h2 := mul_le_mul_of_nonneg_left hd0 hu0
  have h3 : u * n ≤ 1 / 1000 * n := mul_le_mul_of_nonneg_right hu (by linarith)
  have hdb : |d| ≤ 5005 / 10000 * n := by
    have := abs_add_le (d - d0) d0
    rw [sub_add_cancel] at this
    linarith
  refine ⟨by linarith, by linarith, by linarith, fun x hx => ?_⟩
  have hds : |d * s| ≤ 202 / 100 * n := by
    rw [abs_mul]
    have := mul_le_mul hdb hsb (abs_nonneg _) (by positivity)
    linarith
  have h4 := mul_le_mul_of_nonneg_left hds hu0
  have h5 : |d * s - d0 * (Real.pi * f)| ≤ 853 / 100 * (n * u) := by
    rw [show d * s - d0 * (Real.pi * f) = d * (s - Real.pi * f) + (d - d0) * (Real.pi * f) by ring]
    refine (abs_add_le _ _).trans ?_
    rw [abs_mul, abs_mul]
    have a1 := mul_le_mul hdb hsπ (abs_nonneg _) (by positivity)
    have a2 := mul_le_mul (hd.trans h2) hπf (abs_nonneg _) (by positivity)
    have : 0 ≤ n * u := by positivity
    linarith
  have h6 := abs_sub_le x (d * s) (d0 * (Real.pi * f))
  have h7 : u ≤ n * u := by nlinarith
  linarith

private theorem shift_tap {u t h c c0 q g E : ℝ} (hu0 : 0 ≤ u) (hu : u ≤ 1 / 1000) (ht0 : 0 ≤ t) (hE : E ≤ 1) (hc0 : |c0| ≤ 1) (hc : |c - c0| ≤ E)
    (hq : |q - c * h| ≤ u * |c * h| + t) (hg : |g - q * 2| ≤ u * |q * 2| + t) : |g - 2 * c0 * h| ≤ (2 * E + 10 * u) * |h| + 4 * t := by
  have ha := abs_nonneg h
  have hcb : |c| ≤ 2 := by
    have := abs_add_le (c - c0) c0
    rw [sub_add_cancel] at this
    linarith
  have hch : |c * h| ≤ 2 * |h| := by rw [abs_mul]; exact mul_le_mul_of_nonneg_right hcb ha
  have h1 := mul_le_mul_of_nonneg_left hch hu0
  have h0 := mul_le_mul_of_nonneg_right hu ha
  have hqb : |q| ≤ 2002 / 1000 * |h| + t := by
    have := abs_add_le (q - c * h) (c * h)
    rw [sub_add_cancel] at this
    linarith
  have h2 := mul_le_mul_of_nonneg_left hqb hu0
  have h3 := mul_le_mul_of_nonneg_right hu ht0
  have h4 : |c * h - c0 * h| ≤ E * |h| := by rw [← sub_mul, abs_mul]; exact mul_le_mul_of_nonneg_right hc ha
  have hq2 : |q * 2| = 2 * |q| := by rw [abs_mul, abs_two, mul_comm]
  rw [hq2] at hg
  rw [show g - 2 * c0 * h = (g - q * 2) + (2 * (q - c * h) + 2 * (c * h - c0 * h)) by ring]
  refine (abs_add_le _ _).trans ?_
  have h5 := abs_add_le (2 * (q - c * h)) (2 * (c * h - c0 * h))
  rw [abs_mul, abs_mul, abs_two] at h5
  have : 0 ≤ u * |h| := by positivity
  linarith

section
variable {F : Type} [Zero F] [Add F] [Sub F] [Mul F] [Fma F] [Div F] [FloatFun F] {A : FloatArithFun F}

/-- The format suits shifting a filter of `n` taps: integers up to `n` and the number two are exact, nothing overflows, and `pi` and
`std::cos` are accurate to `2 u` relative and `uc` absolute. -/
structure SuitsShift (A : FloatArithFun F) (pi : F) (cos : F → F) (uc : ℝ) (n : ℕ) : Prop where
  u : A.u ≤ 1 / 1000
  tiny : A.tiny ≤ A.u
  integers : ∀ k, k ≤ max n 2 → A.finite (FloatFun.ofSize k : F) ∧ A.val (FloatFun.ofSize k) = k
  long : n * A.u ≤ 1 / 20
  huge : 10 * n + 1000 ≤ A.huge
  pi : A.Near pi Real.pi (2 * A.u * Real.pi)
  cos : ∀ a, A.finite a → A.Near (cos a) (Real.cos (A.val a)) uc
  cos_small : uc ≤ 1 / 100

private theorem shiftCos_near {pi : F} {cos : F → F} {uc : ℝ} {n : ℕ} (hs : SuitsShift A pi cos uc n) (hodd : n % 2 = 1) {f : F} (ff : A.finite f)
    (hf : |A.val f| ≤ 1) {i : ℕ} (hi : i < n) :
    A.Near (shiftCos pi cos n f i) (Real.cos (Real.pi * A.val f * ((i : ℝ) - (n / 2 : ℕ)))) (uc + 12 * (n * A.u)) := by
  obtain ⟨j, hj⟩ : ∃ j, j = min i (n - 1 - i) := ⟨_, rfl⟩
  have hn1 : (1 : ℝ) ≤ n := by exact_mod_cast (by omega : 1 ≤ n)
  have hd0 : |(j : ℝ) - ((n / 2 : ℕ) : ℝ)| ≤ (n : ℝ) / 2 := by
    have h1 : (j : ℝ) ≤ ((n / 2 : ℕ) : ℝ) := by exact_mod_cast (by omega : j ≤ n / 2)
    have h2 : ((n / 2 : ℕ) : ℝ) ≤ (n : ℝ) / 2 := Nat.cast_div_le
    have h3 : (0 : ℝ) ≤ j := Nat.cast_nonneg j
    rw [abs_of_nonpos (by linarith)]
    linarith
  have hcos : Real.cos (Real.pi * A.val f * ((i : ℝ) - (n / 2 : ℕ))) = Real.cos (((j : ℝ) - ((n / 2 : ℕ) : ℝ)) * (Real.pi * A.val f)) := by
    by_cases h : i ≤ n - 1 - i
    · rw [hj, min_eq_left h]
      congr 1
      ring
    · have : (j : ℝ) + i + 1 = n := by exact_mod_cast (by omega : j + i + 1 = n)
      have h2 : (2 : ℝ) * ((n / 2 : ℕ) : ℝ) + 1 = n := by exact_mod_cast (by omega : 2 * (n / 2) + 1 = n)
      rw [← Real.cos_neg]
      congr 1
      rw [show (j : ℝ) = 2 * ((n / 2 : ℕ) : ℝ) - i by linarith]
      ring
  have hhuge := hs.huge
  obtain ⟨fj, vj⟩ := hs.integers j (by omega)
  obtain ⟨fh, vh⟩ := hs.integers (n / 2) (by omega)
  obtain ⟨fp, vp⟩ := hs.pi
  have hpf := (shift_arg (n := n) (d0 := 0) (d := 0) (s := A.val pi * A.val f) A.u_nonneg hs.u A.tiny_nonneg hs.tiny hn1 (by rw [abs_zero]; linarith) hf vp
    (by rw [sub_self, abs_zero]; exact add_nonneg (mul_nonneg A.u_nonneg (abs_nonneg _)) A.tiny_nonneg) (by simp)).1
  obtain ⟨fs, vs⟩ := A.mul pi f fp ff (by linarith)
  obtain ⟨fd, vd⟩ := A.sub (FloatFun.ofSize j) (FloatFun.ofSize (n / 2)) fj fh (by rw [vj, vh]; linarith)
  rw [vj, vh] at vd
  obtain ⟨-, sb, db, hx⟩ := shift_arg A.u_nonneg hs.u A.tiny_nonneg hs.tiny hn1 hd0 hf vp vs vd
  obtain ⟨fx, vx⟩ := A.mul (FloatFun.ofSize j - FloatFun.ofSize (n / 2)) (pi * f) fd fs (by
    rw [abs_mul]
    have := mul_le_mul db sb (abs_nonneg _) (by linarith)
    linarith)
  obtain ⟨fc, vc⟩ := hs.cos _ fx
  unfold shiftCos
  rw [hcos, ← hj]
  refine ⟨fc, ?_⟩
  have h1 := abs_sub_le (A.val (cos ((FloatFun.ofSize j - FloatFun.ofSize (n / 2)) * (pi * f))))
    (Real.cos (A.val ((FloatFun.ofSize j - FloatFun.ofSize (n / 2)) * (pi * f)))) (Real.cos (((j : ℝ) - ((n / 2 : ℕ) : ℝ)) * (Real.pi * A.val f)))
  have h2 := Real.abs_cos_sub_cos_le (A.val ((FloatFun.ofSize j - FloatFun.ofSize (n / 2)) * (pi * f))) (((j : ℝ) - ((n / 2 : ℕ) : ℝ)) * (Real.pi * A.val f))
  have h3 := hx _ vx
  linarith

/-- **C101** shifting a filter to the frequency `f` in place multiplies tap `i` by `2 cos (π f (i - n / 2))` up to rounding, for every filter
and every frequency. -/
theorem C101_shift {pi : F} {cos : F → F} {uc : ℝ} (e : Exec) (mem : List F) (out : Span) (hodd : out.size % 2 = 1) (hm : out.Within mem)
    (hs : SuitsShift A pi cos uc out.size) {f : F} (ff : A.finite f) (hf : |A.val f| ≤ 1) {h : ℕ → F} (hr : Reads mem out h)
    (fh : ∀ i, i < out.size → A.finite (h i) ∧ 10 * |A.val (h i)| + 10 ≤ A.huge) :
    ∃ m g, shiftResponseF pi cos e mem out out f = .ok m ∧ Writes mem m out g ∧
      ∀ i, i < out.size → A.finite (g i) ∧
        |A.val (g i) - 2 * Real.cos (Real.pi * A.val f * ((i : ℝ) - (out.size / 2 : ℕ))) * A.val (h i)| ≤
          (2 * uc + 34 * out.size * A.u) * |A.val (h i)| + 4 * A.tiny := by
  obtain ⟨m, e1, h1⟩ := shiftResponseF_writes pi cos e hodd hm (⟨rfl, hr, fun _ _ => rfl⟩ : Writes mem mem out h) f
  refine ⟨m, _, e1, h1, fun i hi => ?_⟩
  obtain ⟨n, hn⟩ : ∃ n, n = out.size := ⟨_, rfl⟩
  obtain ⟨fi, bi⟩ := fh i hi
  rw [← hn] at hs hodd hi ⊢
  have hu0 := A.u_nonneg
  have ht0 := A.tiny_nonneg
  have hu := hs.u
  have htu := hs.tiny
  have ha := abs_nonneg (A.val (h i))
  have hn1 : (1 : ℝ) ≤ n := by exact_mod_cast (by omega : 1 ≤ n)
  have hnu : A.u ≤ n * A.u := by nlinarith
  obtain ⟨f2, v2⟩ := hs.integers 2 (by omega)
  rw [Nat.cast_ofNat] at v2
  have huc : 0 ≤ uc := (abs_nonneg _).trans (hs.cos 0 A.zero_finite).2
  have h0 := mul_le_mul_of_nonneg_right hu ha
  have h00 := mul_le_mul_of_nonneg_right hnu ha
  have h000 := mul_nonneg hu0 ha
  have h0000 := mul_nonneg huc ha
  by_cases hi2 : i = n / 2
  · simp only [if_pos hi2]
    obtain ⟨fg, vg⟩ := A.mul (h i) (FloatFun.ofSize 2) fi f2 (by rw [v2, abs_mul, abs_two]; linarith)
    rw [v2] at vg
    refine ⟨fg, ?_⟩
    have hc : Real.cos (Real.pi * A.val f * ((i : ℝ) - (n / 2 : ℕ))) = 1 := by rw [← hi2, sub_self, mul_zero, Real.cos_zero]
    rw [hc]
    rw [show (2 * 1 * A.val (h i)) = A.val (h i) * 2 by ring]
    rw [abs_mul, abs_two] at vg
    linarith
  · simp only [if_neg hi2]
    obtain ⟨fc, vc⟩ := shiftCos_near hs hodd ff hf hi
    have hE : uc + 12 * (n * A.u) ≤ 1 := by linarith [hs.cos_small, hs.long]
    have hc1 := Real.abs_cos_le_one (Real.pi * A.val f * ((i : ℝ) - (n / 2 : ℕ)))
    have hcb : |A.val (shiftCos pi cos n f i)| ≤ 2 := by
      have := abs_add_le (A.val (shiftCos pi cos n f i) - Real.cos (Real.pi * A.val f * ((i : ℝ) - (n / 2 : ℕ)))) (Real.cos (Real.pi * A.val f * ((i : ℝ) - (n / 2 : ℕ))))
      rw [sub_add_cancel] at this
      linarith
    have hcm : |A.val (shiftCos pi cos n f i) * A.val (h i)| ≤ 2 * |A.val (h i)| := by
      rw [abs_mul]
      exact mul_le_mul_of_nonneg_right hcb ha
    obtain ⟨fq, vq⟩ := A.mul _ (h i) fc fi (by linarith)
    have hqb : |A.val (shiftCos pi cos n f i * h i)| ≤ 3 * |A.val (h i)| + 1 := by
      have h1 := abs_add_le (A.val (shiftCos pi cos n f i * h i) - A.val (shiftCos pi cos n f i) * A.val (h i)) (A.val (shiftCos pi cos n f i) * A.val (h i))
      rw [sub_add_cancel] at h1
      have h2 := mul_le_mul_of_nonneg_left hcm hu0
      linarith
    obtain ⟨fg, vg⟩ := A.mul _ (FloatFun.ofSize 2) fq f2 (by rw [v2, abs_mul, abs_two]; linarith)
    rw [v2] at vg
    refine ⟨fg, (shift_tap hu0 hu ht0 hE hc1 vc vq vg).trans ?_⟩
    linarith

end

namespace BandRoundedExample
open FloatWindowsExample WindowedRoundedExample HighpassRoundedExample

/-- a band stop of three taps with a rectangular window, in single precision -/
example (cos : Bin 24 (-149) → Bin 24 (-149)) (lower upper : Bin 24 (-149)) (c : KernOf (Bin 24 (-149))) (hc : c.Valid) : ∃ m g,
    designWindowedBandstopF ops.pi minusOne sine cos ⟨true, true, 4⟩ c [0, 0, 0] ⟨0, 3⟩ lower upper
      (fun mem out => forN out.size (fun i mem => wr mem ((out.pos + i : Nat) : Int) (ones i)) mem) = .ok m ∧
    Writes [0, 0, 0] m ⟨0, 3⟩ g ∧ g 2 = g 0 := by
  have hw : (⟨0, 3⟩ : Span).Within ([0, 0, 0] : List (Bin 24 (-149))) := le_refl 3
  have : Inhabited (Bin 24 (-149)) := ⟨0⟩
  obtain ⟨m0, w1, w2⟩ := fill_writes ([0, 0, 0] : List (Bin 24 (-149))) ⟨0, 3⟩ ones hw
  obtain ⟨m, -, g, -, e1, e2, -, -, -, e3⟩ := C101_bandstop_symmetric ops.pi minusOne sine cos ⟨true, true, 4⟩ c hc [0, 0, 0] ⟨0, 3⟩ rfl hw
    lower upper (fun mem out => forN out.size (fun i mem => wr mem ((out.pos + i : Nat) : Int) (ones i)) mem) w1 w2 (fun i _ => rfl)
  exact ⟨m, g, e1, e2, e3 0 (by norm_num)⟩

theorem suitsShift : SuitsShift fl ops.pi ops.cos (2 ^ (-(23 : ℤ))) 3 where
  u := by change (2 : ℝ) ^ (-(24 : ℤ)) ≤ _; norm_num
  tiny := by change (2 : ℝ) ^ ((-149 : ℤ) - 1) ≤ (2 : ℝ) ^ (-(24 : ℤ)); norm_num
  integers k hk := integers k (by omega)
  long := by change ((3 : ℕ) : ℝ) * (2 : ℝ) ^ (-(24 : ℤ)) ≤ _; norm_num
  huge := by change _ ≤ (2 : ℝ) ^ 126; norm_num
  pi := ops_ok.pi
  cos := ops_ok.cos
  cos_small := by norm_num

/-- three taps, all one, moved to half the Nyquist frequency in single precision: the outer taps vanish up to rounding -/
example : ∃ m g, shiftResponseF ops.pi ops.cos ⟨true, true, 4⟩ [ones 0, ones 1, ones 2] ⟨0, 3⟩ ⟨0, 3⟩ half = .ok m ∧
    Writes [ones 0, ones 1, ones 2] m ⟨0, 3⟩ g ∧ |fl.val (g 0)| ≤ 1e-4 := by
  obtain ⟨m, g, e1, e2, e3⟩ := C101_shift (h := ones) (f := half) ⟨true, true, 4⟩ [ones 0, ones 1, ones 2] ⟨0, 3⟩ rfl (le_refl 3) suitsShift
    (show |(1 / 2 : ℝ)| ≤ 2 ^ 128 by norm_num) (show |(1 / 2 : ℝ)| ≤ 1 by norm_num)
    (fun i hi => by
      change i < 3 at hi
      match i, hi with
      | 0, _ => rfl
      | 1, _ => rfl
      | 2, _ => rfl)
    (fun i _ => ⟨(integers 1 (by norm_num)).1, by
      rw [val_ones, abs_one]
      change _ ≤ (2 : ℝ) ^ 126
      norm_num⟩)
  refine ⟨m, g, e1, e2, ?_⟩
  have h0 := (e3 0 (by norm_num)).2
  have hc : Real.cos (Real.pi * fl.val half * (((0 : ℕ) : ℝ) - ((3 / 2 : ℕ) : ℝ))) = 0 := by
    rw [show fl.val half = 1 / 2 from rfl, show Real.pi * (1 / 2) * (((0 : ℕ) : ℝ) - ((3 / 2 : ℕ) : ℝ)) = -(Real.pi / 2) by norm_num; ring,
      Real.cos_neg, Real.cos_pi_div_two]
  change |fl.val (g 0) - 2 * Real.cos (Real.pi * fl.val half * (((0 : ℕ) : ℝ) - ((3 / 2 : ℕ) : ℝ))) * fl.val (ones 0)| ≤
    (2 * 2 ^ (-(23 : ℤ)) + 34 * ((3 : ℕ) : ℝ) * 2 ^ (-(24 : ℤ))) * |fl.val (ones 0)| + 4 * 2 ^ ((-149 : ℤ) - 1) at h0
  rw [hc, val_ones, abs_one, mul_zero, zero_mul, sub_zero] at h0
  refine h0.trans ?_
  norm_num

end BandRoundedExample

end Verif
