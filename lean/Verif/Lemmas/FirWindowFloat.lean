import Verif.Model.FirWindowFloat
import Verif.Lemmas.FirDesign
import Verif.Spec.FirDesign
import Verif.Props.RoundedStatistics

/-! # The windowed low pass: what the loop writes, over any type with arithmetic -/

set_option linter.unusedSectionVars false

namespace Verif

variable {F : Type} [Zero F] [Add F] [Sub F] [Mul F] [Div F] [FloatFun F]

/-- the argument of the sine at tap `i` of the first half -/
def firArg (pi : F) (n : ℕ) (fc : F) (i : ℕ) : F := (FloatFun.ofSize i - FloatFun.ofSize (n / 2)) * (fc * pi)

/-- the taps before normalisation -/
def firTap (pi : F) (sin : F → F) (n : ℕ) (fc : F) (w : ℕ → F) (t : ℕ) : F :=
  if t = n / 2 then w t else w t * (sin (firArg pi n fc (min t (n - 1 - t))) / firArg pi n fc (min t (n - 1 - t)))

theorem kernelWindowedLowpassF_writes (pi : F) (sin : F → F) (e : Exec) (c : KernOf F) (hc : c.Valid) (mem : List F) (out : Span)
    (hodd : out.size % 2 = 1) (hm : out.Within mem) (fc : F) (window : List F → Span → Out (List F)) {m0 : List F} {w : ℕ → F}
    (hwin : window mem out = .ok m0) (hww : Writes mem m0 out w) :
    ∃ m s, kernelWindowedLowpassF pi sin e c mem out fc window = .ok m ∧
      sumIn c ((List.range out.size).map (firTap pi sin out.size fc w)) = .ok s ∧
      Writes mem m out (fun i => firTap pi sin out.size fc w i * (FloatFun.ofSize 1 / s)) := by
  have hm0 := hm
  have hl0 := hww.length
  unfold Span.Within at hm
  obtain ⟨n, hn⟩ : ∃ n, n = out.size := ⟨_, rfl⟩
  rw [← hn] at hodd hm
  have key := forN_inv
    (body := fun i mem => do
      let a ← rd mem ((out.pos + i : Nat) : Int)
      let mem ← wr mem ((out.pos + i : Nat) : Int) (a * (sin (firArg pi n fc i) / firArg pi n fc i))
      let b ← rd mem ((out.pos + (n - i - 1) : Nat) : Int)
      wr mem ((out.pos + (n - i - 1) : Nat) : Int) (b * (sin (firArg pi n fc i) / firArg pi n fc i)))
    (fun k (m : List F) => m.length = m0.length ∧ ∀ j, m[j]? =
      if out.pos ≤ j ∧ j < out.pos + n ∧ (j < out.pos + k ∨ out.pos + n - k ≤ j)
      then some (firTap pi sin n fc w (j - out.pos)) else m0[j]?) (n / 2) m0
    ⟨rfl, fun j => by rw [if_neg (by omega)]⟩
  replace key := key (by
    intro i m hi ⟨hl, hx⟩
    have hr1 : rd m ((out.pos + i : ℕ) : ℤ) = .ok (w i) := by
      apply rd_some
      rw [hx, if_neg (by omega), hww.written i (by omega)]
    obtain ⟨m1, ew, hl', hw'⟩ := wr_upd (mem := m) (p := out.pos + i) (by omega)
      (w i * (sin (firArg pi n fc i) / firArg pi n fc i))
    have hr2 : rd m1 ((out.pos + (n - i - 1) : ℕ) : ℤ) = .ok (w (n - i - 1)) := by
      apply rd_some
      rw [hw', if_neg (by omega), hx, if_neg (by omega), hww.written _ (by omega)]
    obtain ⟨m2, ew2, hl2, hw2⟩ := wr_upd (mem := m1) (p := out.pos + (n - i - 1)) (by omega)
      (w (n - i - 1) * (sin (firArg pi n fc i) / firArg pi n fc i))
    refine ⟨m2, ?_, by omega, fun j => ?_⟩
    · rw [hr1, Out.ok_bind, ew, Out.ok_bind, hr2, Out.ok_bind, ew2]
    · rw [hw2, hw', hx]
      by_cases hj2 : j = out.pos + (n - i - 1)
      · subst hj2
        rw [if_pos rfl, if_pos (by omega), Nat.add_sub_cancel_left, firTap, if_neg (by omega), min_eq_right (by omega),
          show n - 1 - (n - i - 1) = i by omega]
      · rw [if_neg hj2]
        by_cases hj : j = out.pos + i
        · subst hj
          rw [if_pos rfl, if_pos (by omega), Nat.add_sub_cancel_left, firTap, if_neg (by omega), min_eq_left (by omega)]
        · rw [if_neg hj]
          by_cases h1 : out.pos ≤ j ∧ j < out.pos + n ∧ (j < out.pos + i ∨ out.pos + n - i ≤ j)
          · rw [if_pos h1, if_pos (by omega)]
          · rw [if_neg h1, if_neg (by omega)])
  obtain ⟨m1, e1, hl, hx⟩ := key
  have hW : Writes mem m1 out (firTap pi sin n fc w) := by
    refine ⟨by omega, fun t ht => ?_, fun j hj => ?_⟩
    · rw [hx]
      by_cases hmid : t = n / 2
      · rw [if_neg (by omega), hww.written t ht, firTap, if_pos hmid]
      · rw [if_pos (by omega), Nat.add_sub_cancel_left]
    · rw [hx, if_neg (by omega), hww.rest j hj]
  obtain ⟨t, -, hs⟩ := C09_reduce_any_op c.vec c.W hc.width c.red₁ c.red₂ hc.red₁ hc.red₂ (fun a b => a + b) (out.contents m1) 0
    (out.contents m1).length (by omega) 0
  have hs' : sumIn c (out.contents m1) = .ok (t.eval (fun a b => a + b)) := hs
  have hcont : out.contents m1 = (List.range out.size).map (firTap pi sin n fc w) := hW.contents hm0
  obtain ⟨m2, e2, h2⟩ := compoundVS_writes e .mul (FloatFun.ofSize 1 / t.eval (fun a b => a + b)) hm0 hW
  refine ⟨m2, t.eval (fun a b => a + b), ?_, ?_, h2.congr fun i _ => ?_⟩
  · unfold kernelWindowedLowpassF
    rw [← hn]
    simp only []
    rw [cassert_true hodd, Out.ok_bind, hwin, Out.ok_bind]
    refine (congrArg (· >>= _) e1).trans ?_
    rw [Out.ok_bind, hs', Out.ok_bind, e2]
  · rw [← hs', hcont, hn]
  · rw [← hn]; rfl

/-- mirrored windows give mirrored taps, bit for bit -/
theorem firTap_mirror (pi : F) (sin : F → F) {n : ℕ} (hn : n % 2 = 1) (fc : F) (w : ℕ → F) (hw : ∀ i, i < n → w (n - 1 - i) = w i)
    {t : ℕ} (ht : t < n) : firTap pi sin n fc w (n - 1 - t) = firTap pi sin n fc w t := by
  unfold firTap
  rw [hw t ht, show n - 1 - (n - 1 - t) = t by omega, min_comm]
  by_cases h : t = n / 2
  · rw [if_pos h, if_pos (by omega)]
  · rw [if_neg h, if_neg (by omega)]

/-- the taps before normalisation, with a given window -/
def firTapGiven (pi : F) (sin : F → F) (n : ℕ) (fc : F) (w : ℕ → F) (t : ℕ) : F :=
  if t = n / 2 then FloatFun.ofSize 1 * w t
  else sin (firArg pi n fc (min t (n - 1 - t))) / firArg pi n fc (min t (n - 1 - t)) * w t

theorem kernelWindowedLowpassGivenF_writes (pi : F) (sin : F → F) (e : Exec) (c : KernOf F) (hc : c.Valid) (mem : List F) (out win : Span)
    (hodd : out.size % 2 = 1) (hs : out.size = win.size) (hm : out.Within mem) (hwi : win.Within mem)
    (hdis : out.pos + out.size ≤ win.pos ∨ win.pos + win.size ≤ out.pos) (fc : F) {w : ℕ → F} (hr : Reads mem win w) :
    ∃ m s, kernelWindowedLowpassGivenF pi sin e c mem out fc win = .ok m ∧
      sumIn c ((List.range out.size).map (firTapGiven pi sin out.size fc w)) = .ok s ∧
      Writes mem m out (fun i => firTapGiven pi sin out.size fc w i * (FloatFun.ofSize 1 / s)) := by
  have hm0 := hm
  unfold Span.Within at hm hwi
  obtain ⟨n, hn⟩ : ∃ n, n = out.size := ⟨_, rfl⟩
  rw [← hn] at hodd hm hs
  have key := forN_inv
    (body := fun i mem => do
      let mem ← wr mem ((out.pos + i : Nat) : Int) (sin (firArg pi n fc i) / firArg pi n fc i)
      wr mem ((out.pos + (n - i - 1) : Nat) : Int) (sin (firArg pi n fc i) / firArg pi n fc i))
    (fun k (m : List F) => m.length = mem.length ∧ ∀ j, m[j]? =
      if out.pos ≤ j ∧ j < out.pos + n ∧ (j < out.pos + k ∨ out.pos + n - k ≤ j)
      then some (sin (firArg pi n fc (min (j - out.pos) (n - 1 - (j - out.pos)))) / firArg pi n fc (min (j - out.pos) (n - 1 - (j - out.pos))))
      else mem[j]?) (n / 2) mem
    ⟨rfl, fun j => by rw [if_neg (by omega)]⟩
  replace key := key (by
    intro i m hi ⟨hl, hx⟩
    obtain ⟨m1, ew, hl', hw'⟩ := wr_upd (mem := m) (p := out.pos + i) (by omega) (sin (firArg pi n fc i) / firArg pi n fc i)
    obtain ⟨m2, ew2, hl2, hw2⟩ := wr_upd (mem := m1) (p := out.pos + (n - i - 1)) (by omega) (sin (firArg pi n fc i) / firArg pi n fc i)
    refine ⟨m2, ?_, by omega, fun j => ?_⟩
    · rw [ew, Out.ok_bind, ew2]
    · rw [hw2, hw', hx]
      by_cases hj2 : j = out.pos + (n - i - 1)
      · subst hj2
        rw [if_pos rfl, if_pos (by omega), Nat.add_sub_cancel_left, min_eq_right (by omega), show n - 1 - (n - i - 1) = i by omega]
      · rw [if_neg hj2]
        by_cases hj : j = out.pos + i
        · subst hj
          rw [if_pos rfl, if_pos (by omega), Nat.add_sub_cancel_left, min_eq_left (by omega)]
        · rw [if_neg hj]
          by_cases h1 : out.pos ≤ j ∧ j < out.pos + n ∧ (j < out.pos + i ∨ out.pos + n - i ≤ j)
          · rw [if_pos h1, if_pos (by omega)]
          · rw [if_neg h1, if_neg (by omega)])
  obtain ⟨m1, e1, hl, hx⟩ := key
  obtain ⟨m2, e2, hl2, hx2⟩ := wr_upd (mem := m1) (p := out.pos + n / 2) (by omega) (FloatFun.ofSize 1 : F)
  have hW : Writes mem m2 out (fun t => if t = n / 2 then FloatFun.ofSize 1
      else sin (firArg pi n fc (min t (n - 1 - t))) / firArg pi n fc (min t (n - 1 - t))) := by
    refine ⟨by omega, fun t ht => ?_, fun j hj => ?_⟩
    · rw [hx2, hx]
      by_cases hmid : t = n / 2
      · rw [if_pos (by omega)]
        simp only [if_pos hmid]
      · rw [if_neg (by omega), if_pos (by omega), Nat.add_sub_cancel_left]
        simp only [if_neg hmid]
    · rw [hx2, if_neg (by omega), hx, if_neg (by omega)]
  have hw2 := hW.within hm0
  have hl3 : m2.length = mem.length := by omega
  obtain ⟨m3, e3, hl4, hx3, hrest3⟩ := C40_vector_vector e.asserts e.vec e.W .mul m2 out out win rfl (by omega) hw2 hw2 (by omega)
    (Or.inl le_rfl) (by omega)
  have hW3 : Writes mem m3 out (firTapGiven pi sin n fc w) := by
    refine ⟨by omega, fun t ht => ?_, fun j hj => ?_⟩
    · rw [hx3 t _ (w t) ht (hW.written t ht) (by rw [hW.rest _ (by omega), hr t (by omega)])]
      simp only [ArithOp.apply, firTapGiven]
      split <;> rfl
    · rw [hrest3 j hj, hW.rest j hj]
  obtain ⟨t, -, hsum⟩ := C09_reduce_any_op c.vec c.W hc.width c.red₁ c.red₂ hc.red₁ hc.red₂ (fun a b => a + b) (out.contents m3) 0
    (out.contents m3).length (by omega) 0
  have hs' : sumIn c (out.contents m3) = .ok (t.eval (fun a b => a + b)) := hsum
  have hcont : out.contents m3 = (List.range out.size).map (firTapGiven pi sin n fc w) := hW3.contents hm0
  obtain ⟨m4, e4, h4⟩ := compoundVS_writes e .mul (FloatFun.ofSize 1 / t.eval (fun a b => a + b)) hm0 hW3
  refine ⟨m4, t.eval (fun a b => a + b), ?_, ?_, h4.congr fun i _ => ?_⟩
  · unfold kernelWindowedLowpassGivenF compoundVV
    rw [← hn]
    simp only []
    rw [cassert_true hodd, Out.ok_bind, cassert_true hs, Out.ok_bind]
    refine (congrArg (· >>= _) e1).trans ?_
    rw [Out.ok_bind, if_pos hodd, e2, Out.ok_bind, e3, Out.ok_bind, hs', Out.ok_bind, e4]
  · rw [← hs', hcont, hn]
  · rw [← hn]; rfl

theorem firTapGiven_mirror (pi : F) (sin : F → F) {n : ℕ} (hn : n % 2 = 1) (fc : F) (w : ℕ → F) (hw : ∀ i, i < n → w (n - 1 - i) = w i)
    {t : ℕ} (ht : t < n) : firTapGiven pi sin n fc w (n - 1 - t) = firTapGiven pi sin n fc w t := by
  unfold firTapGiven
  rw [hw t ht, show n - 1 - (n - 1 - t) = t by omega, min_comm]
  by_cases h : t = n / 2
  · rw [if_pos h, if_pos (by omega)]
  · rw [if_neg h, if_neg (by omega)]

end Verif
