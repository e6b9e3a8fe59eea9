import Verif.Spec.FloatArith
import Mathlib.Data.Int.Log
import Mathlib.Algebra.Order.Round
import Mathlib.Analysis.SpecialFunctions.Pow.Real
import Mathlib.Tactic.Linarith
import Mathlib.Tactic.Positivity
import Mathlib.Tactic.NormNum

/-! A concrete binary floating point format, to show that the assumed arithmetic exists.

`Bin p emin` are the multiples of `2^emin` together with one overflow value; every operation rounds the exact
result to `p` significant binary digits (to nearest), but never finer than `2^emin`, and overflows when the
rounded magnitude exceeds `2^128`.  `Bin 24 (-149)` is IEEE `binary32` (apart from how ties are broken and from the
last digit of the overflow threshold). -/

set_option linter.unusedSimpArgs false

namespace Verif

/-- rounding to `p` digits, subnormals below -/
noncomputable def binExp (p : ℕ) (emin : ℤ) (x : ℝ) : ℤ := max (Int.log 2 |x| - p + 1) emin

noncomputable def binRound (p : ℕ) (emin : ℤ) (x : ℝ) : ℝ :=
  (round (x / 2 ^ binExp p emin x) : ℝ) * 2 ^ binExp p emin x

/-- `x` is a multiple of the smallest number -/
def IsBin (emin : ℤ) (x : ℝ) : Prop := ∃ k : ℤ, x = k * 2 ^ emin

theorem binRound_isBin (p : ℕ) (emin : ℤ) (x : ℝ) : IsBin emin (binRound p emin x) := by
  obtain ⟨d, hd⟩ : ∃ d : ℕ, binExp p emin x = emin + d := by
    have : emin ≤ binExp p emin x := le_max_right _ _
    exact ⟨(binExp p emin x - emin).toNat, by omega⟩
  refine ⟨round (x / 2 ^ binExp p emin x) * 2 ^ d, ?_⟩
  unfold binRound
  push_cast
  rw [hd, zpow_add₀ (by norm_num : (2 : ℝ) ≠ 0), zpow_natCast]
  ring

theorem binRound_err (p : ℕ) (emin : ℤ) (x : ℝ) :
    |binRound p emin x - x| ≤ (2 : ℝ) ^ (-(p : ℤ)) * |x| + 2 ^ (emin - 1) ∧
    (IsBin emin x → |binRound p emin x - x| ≤ (2 : ℝ) ^ (-(p : ℤ)) * |x|) := by
  set e := binExp p emin x with he
  have hpos : (0 : ℝ) < 2 ^ e := by positivity
  have h0 : |binRound p emin x - x| ≤ 2 ^ (e - 1) := by
    have h1 : binRound p emin x - x = -((x / 2 ^ e - round (x / 2 ^ e)) * 2 ^ e) := by
      unfold binRound
      rw [← he]
      field_simp
      ring
    rw [h1, abs_neg, abs_mul, abs_of_pos hpos]
    have h2 := abs_sub_round (x / 2 ^ e)
    have h3 := mul_le_mul_of_nonneg_right h2 hpos.le
    rw [zpow_sub_one₀ (by norm_num : (2 : ℝ) ≠ 0)]
    linarith
  have hm : (0 : ℝ) < 2 ^ (emin - 1) := by positivity
  have hx0 : 0 ≤ (2 : ℝ) ^ (-(p : ℤ)) * |x| := by positivity
  by_cases hx : x = 0
  · subst hx
    have : binRound p emin 0 = 0 := by simp [binRound]
    rw [this]
    simp only [sub_self, abs_zero, mul_zero, zero_add]
    exact ⟨hm.le, fun _ => le_rfl⟩
  · have hax : 0 < |x| := abs_pos.2 hx
    rcases max_cases (Int.log 2 |x| - p + 1) emin with ⟨h1, h2⟩ | ⟨h1, h2⟩
    · have e1 : e = Int.log 2 |x| - p + 1 := h1
      have key : |binRound p emin x - x| ≤ (2 : ℝ) ^ (-(p : ℤ)) * |x| := by
        refine h0.trans ?_
        have h3 := Int.zpow_log_le_self (b := 2) (by norm_num) hax
        have h4 : (2 : ℝ) ^ (e - 1) = 2 ^ (-(p : ℤ)) * 2 ^ Int.log 2 |x| := by
          rw [← zpow_add₀ (by norm_num : (2 : ℝ) ≠ 0)]
          congr 1
          omega
        rw [h4]
        refine mul_le_mul_of_nonneg_left ?_ (by positivity)
        exact_mod_cast h3
      exact ⟨by linarith, fun _ => key⟩
    · have e1 : e = emin := h1
      rw [e1] at h0
      refine ⟨by linarith, ?_⟩
      rintro ⟨k, hk⟩
      have : binRound p emin x = x := by
        unfold binRound
        rw [← he, e1, hk, mul_div_assoc, div_self (by positivity), mul_one, round_intCast]
      rw [this, sub_self, abs_zero]
      exact hx0

theorem binRound_nonneg (p : ℕ) (emin : ℤ) {x : ℝ} (hx : 0 ≤ x) : 0 ≤ binRound p emin x := by
  unfold binRound
  refine mul_nonneg ?_ (by positivity)
  rw [round_eq]
  have : 0 ≤ ⌊x / 2 ^ binExp p emin x + 1 / 2⌋ := Int.floor_nonneg.2 (by positivity)
  exact_mod_cast this

/-- A number of the format, or the result of an overflow. -/
inductive Bin (p : ℕ) (emin : ℤ) where
  | num (x : ℝ) (h : IsBin emin x)
  | overflow

namespace Bin
variable {p : ℕ} {emin : ℤ}

def val : Bin p emin → ℝ
  | num x _ => x
  | overflow => 0

def finite : Bin p emin → Prop
  | num x _ => |x| ≤ 2 ^ 128
  | overflow => False

/-- rounds an exact result -/
noncomputable def pack (p : ℕ) (emin : ℤ) (x : ℝ) : Bin p emin :=
  open Classical in
  if |binRound p emin x| ≤ 2 ^ 128 then .num (binRound p emin x) (binRound_isBin p emin x) else .overflow

/-- an operation on finite numbers -/
noncomputable def lift₂ (f : ℝ → ℝ → ℝ) : Bin p emin → Bin p emin → Bin p emin
  | num x _, num y _ => pack p emin (f x y)
  | _, _ => overflow

noncomputable instance : Zero (Bin p emin) := ⟨.num 0 ⟨0, by simp⟩⟩
noncomputable instance : Add (Bin p emin) := ⟨lift₂ (· + ·)⟩
noncomputable instance : Sub (Bin p emin) := ⟨lift₂ (· - ·)⟩
noncomputable instance : Mul (Bin p emin) := ⟨lift₂ (· * ·)⟩
/-- registers round once, scalars twice -/
noncomputable instance : Fma (Bin p emin) where
  lane
    | num x _, num y _, num z _ => pack p emin (x * y + z)
    | _, _, _ => overflow
  scalar a b c := a * b + c

theorem pack_spec (hp : 0 < p) {x : ℝ} (hx : |x| ≤ 2 ^ 126) (hemin : emin ≤ 0) :
    (pack p emin x).finite ∧ (pack p emin x).val = binRound p emin x := by
  have h := (binRound_err p emin x).1
  have h1 : (2 : ℝ) ^ (-(p : ℤ)) ≤ 1 := by
    apply zpow_le_one_of_nonpos₀ (by norm_num); omega
  have h2 : (2 : ℝ) ^ (emin - 1) ≤ 1 := by
    apply zpow_le_one_of_nonpos₀ (by norm_num); omega
  have h3 : (2 : ℝ) ^ (-(p : ℤ)) * |x| ≤ |x| := by
    have := mul_le_mul_of_nonneg_right h1 (abs_nonneg x); linarith
  have h4 := abs_add_le (binRound p emin x - x) x
  rw [sub_add_cancel] at h4
  have h5 : |binRound p emin x| ≤ 2 ^ 128 := by
    have : (2 : ℝ) ^ 126 + 2 ^ 126 + 1 ≤ 2 ^ 128 := by norm_num
    linarith
  unfold pack
  rw [if_pos h5]
  exact ⟨h5, rfl⟩

/-- The format satisfies the assumptions made about floating point arithmetic. -/
noncomputable def arith (p : ℕ) (emin : ℤ) (hp : 0 < p) (hemin : emin ≤ 0) : FloatArith (Bin p emin) where
  val := val
  finite := finite
  u := 2 ^ (-(p : ℤ))
  tiny := 2 ^ (emin - 1)
  huge := 2 ^ 126
  u_nonneg := by positivity
  tiny_nonneg := by positivity
  zero_finite := by
    change |(0 : ℝ)| ≤ 2 ^ 128
    norm_num
  val_zero := rfl
  add := by
    rintro (⟨x, hx⟩ | _) (⟨y, hy⟩ | _) ha hb hh
    · obtain ⟨h1, h2⟩ := pack_spec (p := p) (emin := emin) hp hh hemin
      refine ⟨h1, ?_⟩
      change |(pack p emin (x + y)).val - (x + y)| ≤ _
      rw [show (pack p emin (x + y)).val = _ from h2]
      apply (binRound_err p emin (x + y)).2
      obtain ⟨k, rfl⟩ := hx
      obtain ⟨l, rfl⟩ := hy
      exact ⟨k + l, by push_cast; ring⟩
    · exact hb.elim
    · exact ha.elim
    · exact ha.elim
  sub := by
    rintro (⟨x, hx⟩ | _) (⟨y, hy⟩ | _) ha hb hh
    · obtain ⟨h1, h2⟩ := pack_spec (p := p) (emin := emin) hp hh hemin
      refine ⟨h1, ?_⟩
      change |(pack p emin (x - y)).val - (x - y)| ≤ _
      rw [show (pack p emin (x - y)).val = _ from h2]
      apply (binRound_err p emin (x - y)).2
      obtain ⟨k, rfl⟩ := hx
      obtain ⟨l, rfl⟩ := hy
      exact ⟨k - l, by push_cast; ring⟩
    · exact hb.elim
    · exact ha.elim
    · exact ha.elim
  mul := by
    rintro (⟨x, hx⟩ | _) (⟨y, hy⟩ | _) ha hb hh
    · obtain ⟨h1, h2⟩ := pack_spec (p := p) (emin := emin) hp hh hemin
      refine ⟨h1, ?_⟩
      change |(pack p emin (x * y)).val - (x * y)| ≤ _
      rw [show (pack p emin (x * y)).val = _ from h2]
      exact (binRound_err p emin (x * y)).1
    · exact hb.elim
    · exact ha.elim
    · exact ha.elim
  add_sign := by
    rintro (⟨x, hx⟩ | _) (⟨y, hy⟩ | _) ha hb hh h0
    · obtain ⟨h1, h2⟩ := pack_spec (p := p) (emin := emin) hp hh hemin
      change 0 ≤ (pack p emin (x + y)).val
      rw [show (pack p emin (x + y)).val = _ from h2]
      exact binRound_nonneg p emin h0
    · exact hb.elim
    · exact ha.elim
    · exact ha.elim
  mul_sign := by
    rintro (⟨x, hx⟩ | _) (⟨y, hy⟩ | _) ha hb hh h0
    · obtain ⟨h1, h2⟩ := pack_spec (p := p) (emin := emin) hp hh hemin
      change 0 ≤ (pack p emin (x * y)).val
      rw [show (pack p emin (x * y)).val = _ from h2]
      exact binRound_nonneg p emin h0
    · exact hb.elim
    · exact ha.elim
    · exact ha.elim
  lane := by
    rintro (⟨x, hx⟩ | _) (⟨y, hy⟩ | _) (⟨z, hz⟩ | _) ha hb hc
    · right
      intro hh
      obtain ⟨h1, h2⟩ := pack_spec (p := p) (emin := emin) hp hh hemin
      refine ⟨h1, ?_⟩
      change |(pack p emin (x * y + z)).val - (x * y + z)| ≤ _
      rw [show (pack p emin (x * y + z)).val = _ from h2]
      exact (binRound_err p emin (x * y + z)).1
    all_goals first | exact ha.elim | exact hb.elim | exact hc.elim
  scalar := fun _ _ _ _ _ _ => Or.inl rfl

noncomputable instance : Div (Bin p emin) := ⟨lift₂ (· / ·)⟩
noncomputable instance : FloatFun (Bin p emin) where
  ofSize n := pack p emin n
  sqrt
    | num x _ => pack p emin (Real.sqrt x)
    | overflow => overflow

theorem sqrt_le_of_num {x : ℝ} (hx : x ≤ 2 ^ 128) : |Real.sqrt x| ≤ 2 ^ 126 := by
  rw [abs_of_nonneg (Real.sqrt_nonneg x)]
  apply Real.sqrt_le_iff.2
  refine ⟨by positivity, hx.trans ?_⟩
  norm_num

/-- ... and those about division, square root and conversion of sizes. -/
noncomputable def arithFun (p : ℕ) (emin : ℤ) (hp : 0 < p) (hemin : emin ≤ 0) : FloatArithFun (Bin p emin) where
  toFloatArith := arith p emin hp hemin
  div := by
    rintro (⟨x, hx⟩ | _) (⟨y, hy⟩ | _) ha hb _ hh
    · obtain ⟨h1, h2⟩ := pack_spec (p := p) (emin := emin) hp hh hemin
      refine ⟨h1, ?_⟩
      change |(pack p emin (x / y)).val - (x / y)| ≤ _
      rw [show (pack p emin (x / y)).val = _ from h2]
      exact (binRound_err p emin (x / y)).1
    · exact hb.elim
    · exact ha.elim
    · exact ha.elim
  div_sign := by
    rintro (⟨x, hx⟩ | _) (⟨y, hy⟩ | _) ha hb _ hh h0
    · obtain ⟨h1, h2⟩ := pack_spec (p := p) (emin := emin) hp hh hemin
      change 0 ≤ (pack p emin (x / y)).val
      rw [show (pack p emin (x / y)).val = _ from h2]
      exact binRound_nonneg p emin h0
    · exact hb.elim
    · exact ha.elim
    · exact ha.elim
  ofSize := by
    intro n hn
    have hn' : |(n : ℝ)| ≤ 2 ^ 126 := by rw [abs_of_nonneg (Nat.cast_nonneg n)]; exact hn
    obtain ⟨h1, h2⟩ := pack_spec (p := p) (emin := emin) hp hn' hemin
    refine ⟨h1, ?_⟩
    change |(pack p emin n).val - n| ≤ _
    rw [show (pack p emin n).val = _ from h2]
    have h3 := (binRound_err p emin n).2 ⟨n * 2 ^ (-emin).toNat, by
      push_cast
      rw [mul_assoc, ← zpow_natCast, ← zpow_add₀ (by norm_num : (2 : ℝ) ≠ 0),
        show (((-emin).toNat : ℕ) : ℤ) + emin = 0 by omega, zpow_zero, mul_one]⟩
    rwa [abs_of_nonneg (show (0 : ℝ) ≤ (n : ℝ) from Nat.cast_nonneg n)] at h3
  sqrt := by
    rintro (⟨x, hx⟩ | _) ha h0
    · have hx' : |Real.sqrt x| ≤ 2 ^ 126 := sqrt_le_of_num ((le_abs_self x).trans ha)
      obtain ⟨h1, h2⟩ := pack_spec (p := p) (emin := emin) hp hx' hemin
      refine ⟨h1, ?_⟩
      change |(pack p emin (Real.sqrt x)).val - Real.sqrt x| ≤ _
      rw [show (pack p emin (Real.sqrt x)).val = _ from h2]
      have := (binRound_err p emin (Real.sqrt x)).1
      rwa [abs_of_nonneg (Real.sqrt_nonneg x)] at this
    · exact ha.elim

end Bin
end Verif
