import Verif.Model.PocketReal
import Verif.Lemmas.PocketTwiddle

/-! # Half-complex rows: how the real transforms store spectra of real signals -/

set_option linter.unusedSimpArgs false
set_option linter.unusedSectionVars false
set_option linter.unusedVariables false

namespace Verif.Pocket
open Complex

/-- The half-complex layout `r0, r1, i1, r2, i2, ...` of a spectrum `Y`. -/
noncomputable def enc (Y : ℕ → ℂ) (p : ℕ) : ℝ :=
  if p = 0 then (Y 0).re else if p % 2 = 1 then (Y ((p + 1) / 2)).re else (Y (p / 2)).im

theorem enc_zero (Y : ℕ → ℂ) : enc Y 0 = (Y 0).re := rfl

theorem enc_re {Y : ℕ → ℂ} {p c : ℕ} (hc : 0 < c) (h : p = 2 * c - 1) : enc Y p = (Y c).re := by
  subst h
  unfold enc
  rw [if_neg (by omega), if_pos (by omega), show (2 * c - 1 + 1) / 2 = c by omega]

theorem enc_im {Y : ℕ → ℂ} {p c : ℕ} (hc : 0 < c) (h : p = 2 * c) : enc Y p = (Y c).im := by
  subst h
  unfold enc
  rw [if_neg (by omega), if_neg (by omega), show (2 * c) / 2 = c by omega]

/-- A buffer of rows of length `L`, row `r` in half-complex layout. -/
noncomputable def rows (L : ℕ) (X : ℕ → ℕ → ℂ) (n : ℕ) : ℝ := enc (X (n / L)) (n % L)

theorem rows_at {L r p : ℕ} {X : ℕ → ℕ → ℂ} (hp : p < L) : rows L X (p + L * r) = enc (X r) p := by
  unfold rows
  rw [Nat.add_mul_mod_self_left, Nat.mod_eq_of_lt hp, Nat.add_mul_div_left _ _ (by omega),
    Nat.div_eq_of_lt hp, Nat.zero_add]

/-- short rows: position `a` in row `k + l1 * j` -/
theorem rows_short {ido l1 a k j : ℕ} {X : ℕ → ℕ → ℂ} (ha : a < ido) :
    rows ido X (ix ido l1 a k j) = enc (X (k + l1 * j)) a := rows_at ha

/-- long rows: position `a + ido * b` in row `k` -/
theorem rows_long {ido ip a b k : ℕ} {X : ℕ → ℕ → ℂ} (ha : a < ido) (hb : b < ip) :
    rows (ido * ip) X (ix ido ip a b k) = enc (X k) (a + ido * b) := by
  have h : a + ido * b < ido * ip := by
    have : ido * b + ido ≤ ido * ip := by rw [← Nat.mul_succ]; exact Nat.mul_le_mul_left _ hb
    omega
  rw [← rows_at h]
  congr 1
  unfold ix
  ring

/-- The spectrum of a real signal of length `L`. -/
def Herm (L : ℕ) (X : ℕ → ℂ) : Prop :=
  (∀ c, X (c + L) = X c) ∧ ∀ c, c ≤ L → X (L - c) = (starRingEnd ℂ) (X c)

theorem Herm.period {L : ℕ} {X : ℕ → ℂ} (h : Herm L X) (c b : ℕ) : X (c + L * b) = X c := by
  induction b with
  | zero => simp
  | succ b ih => rw [Nat.mul_succ, ← Nat.add_assoc, h.1, ih]

theorem Herm.mirror {L : ℕ} {X : ℕ → ℂ} (h : Herm L X) {c b : ℕ} (hb : 0 < b) (hc : c ≤ L) :
    X (L * b - c) = (starRingEnd ℂ) (X c) := by
  obtain ⟨b, rfl⟩ : ∃ b', b = b' + 1 := ⟨b - 1, by omega⟩
  have e : L * (b + 1) - c = (L - c) + L * b := by rw [Nat.mul_succ]; omega
  rw [e, h.period, h.2 c hc]

theorem Herm.real0 {L : ℕ} {X : ℕ → ℂ} (h : Herm L X) : (X 0).im = 0 := by
  have := h.2 0 (by omega)
  have h2 := h.1 0
  rw [Nat.zero_add] at h2
  rw [Nat.sub_zero, h2] at this
  have h3 := congrArg Complex.im this
  simp at h3
  linarith

theorem Herm.realMid {L m : ℕ} {X : ℕ → ℂ} (h : Herm L X) (hm : L = 2 * m) : (X m).im = 0 := by
  have := h.2 m (by omega)
  rw [show L - m = m by omega] at this
  have h3 := congrArg Complex.im this
  simp at h3
  linarith

theorem conj_w (fwd : Bool) (n m : ℕ) : (starRingEnd ℂ) (w fwd n m) = w (!fwd) n m := by
  apply Complex.ext <;> cases fwd <;> simp [w, cI]

theorem w_neg (fwd : Bool) {n m : ℕ} (hn : 0 < n) (h : m ≤ n) : w fwd n (n - m) = w (!fwd) n m := by
  apply Complex.ext
  · exact cR_sub hn h
  · show cI fwd n (n - m) = cI (!fwd) n m
    rw [cI_sub hn h]
    cases fwd <;> simp [cI]

theorem w_sub (fwd : Bool) {n a b : ℕ} (h : b ≤ a) : w fwd n (a - b) = w fwd n a * w (!fwd) n b := by
  obtain ⟨c, rfl⟩ : ∃ c, a = b + c := ⟨a - b, by omega⟩
  rw [Nat.add_sub_cancel_left, w_add, mul_right_comm, w_norm, one_mul]

/-! ### one forward stage -/

/-- The forward stage of radix `ip` on spectra of length `ido`: row `k` of the result. -/
noncomputable def fstage (ip ido l1 : ℕ) (X : ℕ → ℕ → ℂ) (k c : ℕ) : ℂ :=
  ∑ j ∈ Finset.range ip, w true (ido * ip) (c * j) * X (k + l1 * j) c

/-- the twiddled inputs of one butterfly -/
noncomputable def dtw (ip ido l1 : ℕ) (X : ℕ → ℕ → ℂ) (k c j : ℕ) : ℂ :=
  w true (ido * ip) (c * j) * X (k + l1 * j) c

/-- a short Fourier transform -/
noncomputable def sft (fwd : Bool) (ip : ℕ) (u : ℕ → ℂ) (b : ℕ) : ℂ :=
  ∑ j ∈ Finset.range ip, u j * w fwd ip (b * j)

section fwd
variable {ip ido l1 : ℕ} {X : ℕ → ℕ → ℂ}

theorem fstage_up (hip : 0 < ip) (hido : 0 < ido) (hX : ∀ r, Herm ido (X r)) (k c b : ℕ) :
    fstage ip ido l1 X k (c + ido * b) = sft true ip (dtw ip ido l1 X k c) b := by
  unfold fstage sft dtw
  apply Finset.sum_congr rfl
  intro j _
  rw [(hX _).period, Nat.add_mul, w_add]
  have e : w true (ido * ip) (ido * b * j) = w true ip (b * j) := by
    rw [← w_scale true hido (n := ip) (m := b * j)]
    congr 1 <;> ring
  rw [e]
  ring

theorem fstage_down (hip : 0 < ip) (hido : 0 < ido) (hX : ∀ r, Herm ido (X r)) {k c b : ℕ} (hb : 0 < b)
    (hc : c ≤ ido) :
    fstage ip ido l1 X k (ido * b - c) = (starRingEnd ℂ) (sft false ip (dtw ip ido l1 X k c) b) := by
  unfold fstage sft dtw
  rw [map_sum]
  apply Finset.sum_congr rfl
  intro j _
  have hle : c ≤ ido * b := le_trans hc (Nat.le_mul_of_pos_right _ hb)
  rw [(hX _).mirror hb hc, Nat.sub_mul, w_sub true (Nat.mul_le_mul_right _ hle)]
  have e : w true (ido * ip) (ido * b * j) = w true ip (b * j) := by
    rw [← w_scale true hido (n := ip) (m := b * j)]
    congr 1 <;> ring
  rw [e]
  simp only [map_mul, conj_w]
  simp
  ring

/-- the twiddle factors of a stage -/
def TwOk (wa : List ℝ) (ip ido : ℕ) : Prop := ∀ x c, x + 1 < ip → 0 < c → 2 * c < ido →
  ld wa (rwx ido x (2 * c - 2)) = .ok (w false (ido * ip) ((x + 1) * c)).re ∧
  ld wa (rwx ido x (2 * c - 1)) = .ok (w false (ido * ip) ((x + 1) * c)).im

theorem mulCC_ok {wa : List ℝ} (hw : TwOk wa ip ido) {k c x : ℕ} (hk : k < l1) (hx : x + 1 < ip)
    (hc0 : 0 < c) (hc : 2 * c < ido) :
    mulCC wa (tab (ido * ip * l1) (rows ido X)) ido l1 (2 * c) k x = .ok (dtw ip ido l1 X k c (x + 1)) := by
  unfold mulCC
  obtain ⟨h1, h2⟩ := hw x c hx hc0 hc
  have e : ido * ip * l1 = ido * l1 * ip := by ring
  rw [h1, Out.ok_bind, h2, Out.ok_bind, e, ld_tab (ix_lt (by omega) hk hx), Out.ok_bind,
    ld_tab (ix_lt (by omega) hk hx), Out.ok_bind, rows_short (by omega), rows_short (by omega),
    enc_re hc0 rfl, enc_im hc0 rfl, Out.pure_def]
  congr 1
  unfold dtw mulpm
  rw [w_true, Nat.mul_comm c (x + 1)]
  generalize w false (ido * ip) ((x + 1) * c) = z
  apply Complex.ext <;> simp <;> ring

/-- reads of the short rows -/
theorem ld_short_0 {k j : ℕ} (hido : 0 < ido) (hk : k < l1) (hj : j < ip) :
    ld (tab (ido * ip * l1) (rows ido X)) (ix ido l1 0 k j) = .ok (X (k + l1 * j) 0).re := by
  rw [show ido * ip * l1 = ido * l1 * ip by ring, ld_tab (ix_lt (by omega) hk hj), rows_short hido, enc_zero]

theorem ld_short_re {k j c : ℕ} (hk : k < l1) (hj : j < ip) (hc0 : 0 < c) (hc : 2 * c < ido) :
    ld (tab (ido * ip * l1) (rows ido X)) (ix ido l1 (2 * c - 1) k j) = .ok (X (k + l1 * j) c).re := by
  rw [show ido * ip * l1 = ido * l1 * ip by ring, ld_tab (ix_lt (by omega) hk hj), rows_short (by omega),
    enc_re hc0 rfl]

theorem ld_short_im {k j c : ℕ} (hk : k < l1) (hj : j < ip) (hc0 : 0 < c) (hc : 2 * c < ido) :
    ld (tab (ido * ip * l1) (rows ido X)) (ix ido l1 (2 * c) k j) = .ok (X (k + l1 * j) c).im := by
  rw [show ido * ip * l1 = ido * l1 * ip by ring, ld_tab (ix_lt (by omega) hk hj), rows_short (by omega),
    enc_im hc0 rfl]

theorem ld_short_mid {k j m : ℕ} (hk : k < l1) (hj : j < ip) (hm0 : 0 < m) (hm : ido = 2 * m) :
    ld (tab (ido * ip * l1) (rows ido X)) (ix ido l1 (ido - 1) k j) = .ok (X (k + l1 * j) m).re := by
  rw [show ido * ip * l1 = ido * l1 * ip by ring, ld_tab (ix_lt (by omega) hk hj), rows_short (by omega),
    enc_re hm0 (by omega)]

/-! The values to be stored. -/

variable (hip : 0 < ip) (hido : 0 < ido) (hX : ∀ r, Herm ido (X r))
include hip hido hX

theorem sft_dtw0 (fwd : Bool) (k b : ℕ) : sft fwd ip (dtw ip ido l1 X k 0) b
    = sft fwd ip (fun j => ((X (k + l1 * j) 0).re : ℂ)) b := by
  unfold sft dtw
  apply Finset.sum_congr rfl
  intro j _
  rw [Nat.zero_mul, w_zero, one_mul]
  congr 1
  apply Complex.ext <;> simp [(hX _).real0]

theorem fv_00 {k : ℕ} : rows (ido * ip) (fstage ip ido l1 X) (ix ido ip 0 0 k)
    = (sft true ip (fun j => ((X (k + l1 * j) 0).re : ℂ)) 0).re := by
  rw [rows_long hido hip, show 0 + ido * 0 = 0 by simp, enc_zero]
  have := fstage_up (l1 := l1) hip hido hX k 0 0
  rw [show 0 + ido * 0 = 0 by simp] at this
  rw [this, sft_dtw0 hip hido hX]

theorem fv_last {k b : ℕ} (hb : 0 < b) (hb2 : 2 * b ≤ ip) :
    rows (ido * ip) (fstage ip ido l1 X) (ix ido ip (ido - 1) (2 * b - 1) k)
      = (sft true ip (fun j => ((X (k + l1 * j) 0).re : ℂ)) b).re := by
  have e : ido - 1 + ido * (2 * b - 1) = 2 * (ido * b) - 1 := by
    obtain ⟨b, rfl⟩ : ∃ b', b = b' + 1 := ⟨b - 1, by omega⟩
    rw [show 2 * (b + 1) - 1 = 2 * b + 1 by omega]
    have : ido * (2 * b + 1) = ido + 2 * (ido * b) := by ring
    have h2 : ido * (b + 1) = ido + ido * b := by ring
    omega
  rw [rows_long (by omega) (by omega), enc_re (Nat.mul_pos hido hb) e]
  have := fstage_up (l1 := l1) hip hido hX k 0 b
  rw [Nat.zero_add] at this
  rw [this, sft_dtw0 hip hido hX]

theorem fv_first {k b : ℕ} (hb : 0 < b) (hb2 : 2 * b < ip) :
    rows (ido * ip) (fstage ip ido l1 X) (ix ido ip 0 (2 * b) k)
      = (sft true ip (fun j => ((X (k + l1 * j) 0).re : ℂ)) b).im := by
  rw [rows_long (by omega) (by omega), enc_im (c := ido * b) (Nat.mul_pos hido hb) (by ring)]
  have := fstage_up (l1 := l1) hip hido hX k 0 b
  rw [Nat.zero_add] at this
  rw [this, sft_dtw0 hip hido hX]

theorem fv_up_re {k b c : ℕ} (hb2 : 2 * b < ip) (hc0 : 0 < c) (hc : 2 * c < ido) :
    rows (ido * ip) (fstage ip ido l1 X) (ix ido ip (2 * c - 1) (2 * b) k)
      = (sft true ip (dtw ip ido l1 X k c) b).re := by
  have e : 2 * c - 1 + ido * (2 * b) = 2 * (c + ido * b) - 1 := by
    have : ido * (2 * b) = 2 * (ido * b) := by ring
    omega
  rw [rows_long (by omega) (by omega), enc_re (by omega) e, fstage_up hip hido hX]

theorem fv_up_im {k b c : ℕ} (hb2 : 2 * b < ip) (hc0 : 0 < c) (hc : 2 * c < ido) :
    rows (ido * ip) (fstage ip ido l1 X) (ix ido ip (2 * c) (2 * b) k)
      = (sft true ip (dtw ip ido l1 X k c) b).im := by
  have e : 2 * c + ido * (2 * b) = 2 * (c + ido * b) := by ring
  rw [rows_long (by omega) (by omega), enc_im (by omega) e, fstage_up hip hido hX]

theorem fv_down_re {k b c : ℕ} (hb : 0 < b) (hb2 : 2 * b ≤ ip) (hc0 : 0 < c) (hc : 2 * c < ido) :
    rows (ido * ip) (fstage ip ido l1 X) (ix ido ip (ido - 2 * c - 1) (2 * b - 1) k)
      = (sft false ip (dtw ip ido l1 X k c) b).re := by
  have hle : ido ≤ ido * b := Nat.le_mul_of_pos_right _ hb
  have e : ido - 2 * c - 1 + ido * (2 * b - 1) = 2 * (ido * b - c) - 1 := by
    obtain ⟨b, rfl⟩ : ∃ b', b = b' + 1 := ⟨b - 1, by omega⟩
    rw [show 2 * (b + 1) - 1 = 2 * b + 1 by omega]
    have : ido * (2 * b + 1) = ido + 2 * (ido * b) := by ring
    have h2 : ido * (b + 1) = ido + ido * b := by ring
    omega
  rw [rows_long (by omega) (by omega), enc_re (by omega) e, fstage_down hip hido hX hb (by omega)]
  simp

theorem fv_down_im {k b c : ℕ} (hb : 0 < b) (hb2 : 2 * b ≤ ip) (hc0 : 0 < c) (hc : 2 * c < ido) :
    rows (ido * ip) (fstage ip ido l1 X) (ix ido ip (ido - 2 * c) (2 * b - 1) k)
      = -(sft false ip (dtw ip ido l1 X k c) b).im := by
  have hle : ido ≤ ido * b := Nat.le_mul_of_pos_right _ hb
  have e : ido - 2 * c + ido * (2 * b - 1) = 2 * (ido * b - c) := by
    obtain ⟨b, rfl⟩ : ∃ b', b = b' + 1 := ⟨b - 1, by omega⟩
    rw [show 2 * (b + 1) - 1 = 2 * b + 1 by omega]
    have : ido * (2 * b + 1) = ido + 2 * (ido * b) := by ring
    have h2 : ido * (b + 1) = ido + ido * b := by ring
    omega
  rw [rows_long (by omega) (by omega), enc_im (by omega) e, fstage_down hip hido hX hb (by omega)]
  simp

theorem sft_dtwM {m : ℕ} (hm : ido = 2 * m) (fwd : Bool) (k b : ℕ) : sft fwd ip (dtw ip ido l1 X k m) b
    = sft fwd ip (fun j => w true (2 * ip) j * ((X (k + l1 * j) m).re : ℂ)) b := by
  unfold sft dtw
  apply Finset.sum_congr rfl
  intro j _
  congr 2
  · rw [hm, ← w_scale true (show 0 < m by omega) (n := 2 * ip) (m := j)]
    congr 1 <;> ring
  · apply Complex.ext <;> simp [(hX _).realMid hm]

theorem fv_mid_re {k b m : ℕ} (hm : ido = 2 * m) (hb2 : 2 * b < ip) :
    rows (ido * ip) (fstage ip ido l1 X) (ix ido ip (ido - 1) (2 * b) k)
      = (sft true ip (fun j => w true (2 * ip) j * ((X (k + l1 * j) m).re : ℂ)) b).re := by
  have e : ido - 1 + ido * (2 * b) = 2 * (m + ido * b) - 1 := by
    have : ido * (2 * b) = 2 * (ido * b) := by ring
    omega
  rw [rows_long (by omega) (by omega), enc_re (by omega) e, fstage_up hip hido hX, sft_dtwM hip hido hX hm]

theorem fv_mid_im {k b m : ℕ} (hm : ido = 2 * m) (hb2 : 2 * b + 1 < ip) :
    rows (ido * ip) (fstage ip ido l1 X) (ix ido ip 0 (2 * b + 1) k)
      = (sft true ip (fun j => w true (2 * ip) j * ((X (k + l1 * j) m).re : ℂ)) b).im := by
  have e : 0 + ido * (2 * b + 1) = 2 * (m + ido * b) := by
    have : ido * (2 * b + 1) = 2 * (ido * b) + ido := by ring
    omega
  rw [rows_long (by omega) (by omega), enc_im (by omega) e, fstage_up hip hido hX, sft_dtwM hip hido hX hm]

end fwd

/-! ### one backward stage -/

/-- The backward stage of radix `ip`: row `r = k + l1 * j` of the result. -/
noncomputable def bstage (ip ido l1 : ℕ) (Y : ℕ → ℕ → ℂ) (r c : ℕ) : ℂ :=
  w false (ido * ip) (c * (r / l1)) * sft false ip (fun b => Y (r % l1) (c + ido * b)) (r / l1)

section bwd
variable {ip ido l1 : ℕ} {Y : ℕ → ℕ → ℂ}

/-! the values to be stored -/

theorem bstage_at {k j : ℕ} (hk : k < l1) (c : ℕ) : bstage ip ido l1 Y (k + l1 * j) c
    = w false (ido * ip) (c * j) * sft false ip (fun b => Y k (c + ido * b)) j := by
  unfold bstage
  rw [Nat.add_mul_mod_self_left, Nat.mod_eq_of_lt hk, Nat.add_mul_div_left _ _ (by omega),
    Nat.div_eq_of_lt hk, Nat.zero_add]

theorem bv_0 {k j : ℕ} (hido : 0 < ido) (hk : k < l1) :
    rows ido (bstage ip ido l1 Y) (ix ido l1 0 k j) = (sft false ip (fun b => Y k (ido * b)) j).re := by
  rw [rows_short hido, enc_zero, bstage_at hk, Nat.zero_mul, w_zero, one_mul]
  simp only [Nat.zero_add]

theorem bv_re {k j c : ℕ} (hk : k < l1) (hc0 : 0 < c) (hc : 2 * c < ido) :
    rows ido (bstage ip ido l1 Y) (ix ido l1 (2 * c - 1) k j)
      = (w false (ido * ip) (c * j) * sft false ip (fun b => Y k (c + ido * b)) j).re := by
  rw [rows_short (by omega), enc_re hc0 rfl, bstage_at hk]

theorem bv_im {k j c : ℕ} (hk : k < l1) (hc0 : 0 < c) (hc : 2 * c < ido) :
    rows ido (bstage ip ido l1 Y) (ix ido l1 (2 * c) k j)
      = (w false (ido * ip) (c * j) * sft false ip (fun b => Y k (c + ido * b)) j).im := by
  rw [rows_short (by omega), enc_im hc0 rfl, bstage_at hk]

theorem bv_mid {k j m : ℕ} (hk : k < l1) (hm0 : 0 < m) (hm : ido = 2 * m) :
    rows ido (bstage ip ido l1 Y) (ix ido l1 (ido - 1) k j)
      = (w false (2 * ip) j * sft false ip (fun b => Y k (m + ido * b)) j).re := by
  rw [rows_short (by omega), enc_re hm0 (by omega), bstage_at hk]
  have e : w false (ido * ip) (m * j) = w false (2 * ip) j := by
    rw [hm, ← w_scale false hm0 (n := 2 * ip) (m := j)]
    congr 1 <;> ring
  rw [e]

/-! reads of the long rows -/

theorem ld_long {k a b : ℕ} (hk : k < l1) (ha : a < ido) (hb : b < ip) :
    ld (tab (ido * ip * l1) (rows (ido * ip) Y)) (ix ido ip a b k) = .ok (enc (Y k) (a + ido * b)) := by
  rw [ld_tab (ix_lt ha hb hk), rows_long ha hb]

theorem ld_long_00 {k : ℕ} (hk : k < l1) (hido : 0 < ido) (hip : 0 < ip) :
    ld (tab (ido * ip * l1) (rows (ido * ip) Y)) (ix ido ip 0 0 k) = .ok (Y k 0).re := by
  rw [ld_long hk hido hip, show 0 + ido * 0 = 0 by simp, enc_zero]

theorem ld_long_last {k b : ℕ} (hk : k < l1) (hido : 0 < ido) (hb : 0 < b) (hb2 : 2 * b ≤ ip) :
    ld (tab (ido * ip * l1) (rows (ido * ip) Y)) (ix ido ip (ido - 1) (2 * b - 1) k)
      = .ok (Y k (ido * b)).re := by
  have e : ido - 1 + ido * (2 * b - 1) = 2 * (ido * b) - 1 := by
    obtain ⟨b, rfl⟩ : ∃ b', b = b' + 1 := ⟨b - 1, by omega⟩
    rw [show 2 * (b + 1) - 1 = 2 * b + 1 by omega]
    have : ido * (2 * b + 1) = ido + 2 * (ido * b) := by ring
    have h2 : ido * (b + 1) = ido + ido * b := by ring
    omega
  rw [ld_long hk (by omega) (by omega), enc_re (Nat.mul_pos hido hb) e]

theorem ld_long_first {k b : ℕ} (hk : k < l1) (hido : 0 < ido) (hb : 0 < b) (hb2 : 2 * b < ip) :
    ld (tab (ido * ip * l1) (rows (ido * ip) Y)) (ix ido ip 0 (2 * b) k) = .ok (Y k (ido * b)).im := by
  rw [ld_long hk (by omega) (by omega), enc_im (c := ido * b) (Nat.mul_pos hido hb) (by ring)]

theorem ld_long_up_re {k b c : ℕ} (hk : k < l1) (hb2 : 2 * b < ip) (hc0 : 0 < c) (hc : 2 * c < ido) :
    ld (tab (ido * ip * l1) (rows (ido * ip) Y)) (ix ido ip (2 * c - 1) (2 * b) k)
      = .ok (Y k (c + ido * b)).re := by
  have e : 2 * c - 1 + ido * (2 * b) = 2 * (c + ido * b) - 1 := by
    have : ido * (2 * b) = 2 * (ido * b) := by ring
    omega
  rw [ld_long hk (by omega) (by omega), enc_re (by omega) e]

theorem ld_long_up_im {k b c : ℕ} (hk : k < l1) (hb2 : 2 * b < ip) (hc0 : 0 < c) (hc : 2 * c < ido) :
    ld (tab (ido * ip * l1) (rows (ido * ip) Y)) (ix ido ip (2 * c) (2 * b) k)
      = .ok (Y k (c + ido * b)).im := by
  rw [ld_long hk (by omega) (by omega), enc_im (c := c + ido * b) (by omega) (by ring)]

theorem herm_long (hY : ∀ k, Herm (ido * ip) (Y k)) {k b c : ℕ} (hb : 0 < b) (hb2 : b ≤ ip) (hc : c ≤ ido) :
    Y k (ido * b - c) = (starRingEnd ℂ) (Y k (c + ido * (ip - b))) := by
  have hle : ido ≤ ido * b := Nat.le_mul_of_pos_right _ hb
  have h2 : ido * (ip - b) + ido * b = ido * ip := by rw [← Nat.mul_add]; congr 1; omega
  rw [← (hY k).2 _ (by omega)]
  congr 1
  omega

theorem ld_long_down_re (hY : ∀ k, Herm (ido * ip) (Y k)) {k b c : ℕ} (hk : k < l1) (hb : 0 < b)
    (hb2 : 2 * b ≤ ip) (hc0 : 0 < c) (hc : 2 * c < ido) :
    ld (tab (ido * ip * l1) (rows (ido * ip) Y)) (ix ido ip (ido - 2 * c - 1) (2 * b - 1) k)
      = .ok (Y k (c + ido * (ip - b))).re := by
  have hle : ido ≤ ido * b := Nat.le_mul_of_pos_right _ hb
  have e : ido - 2 * c - 1 + ido * (2 * b - 1) = 2 * (ido * b - c) - 1 := by
    obtain ⟨b, rfl⟩ : ∃ b', b = b' + 1 := ⟨b - 1, by omega⟩
    rw [show 2 * (b + 1) - 1 = 2 * b + 1 by omega]
    have : ido * (2 * b + 1) = ido + 2 * (ido * b) := by ring
    have h2 : ido * (b + 1) = ido + ido * b := by ring
    omega
  rw [ld_long hk (by omega) (by omega), enc_re (by omega) e, herm_long hY hb (by omega) (by omega)]
  simp

theorem ld_long_down_im (hY : ∀ k, Herm (ido * ip) (Y k)) {k b c : ℕ} (hk : k < l1) (hb : 0 < b)
    (hb2 : 2 * b ≤ ip) (hc0 : 0 < c) (hc : 2 * c < ido) :
    ld (tab (ido * ip * l1) (rows (ido * ip) Y)) (ix ido ip (ido - 2 * c) (2 * b - 1) k)
      = .ok (-(Y k (c + ido * (ip - b))).im) := by
  have hle : ido ≤ ido * b := Nat.le_mul_of_pos_right _ hb
  have e : ido - 2 * c + ido * (2 * b - 1) = 2 * (ido * b - c) := by
    obtain ⟨b, rfl⟩ : ∃ b', b = b' + 1 := ⟨b - 1, by omega⟩
    rw [show 2 * (b + 1) - 1 = 2 * b + 1 by omega]
    have : ido * (2 * b + 1) = ido + 2 * (ido * b) := by ring
    have h2 : ido * (b + 1) = ido + ido * b := by ring
    omega
  rw [ld_long hk (by omega) (by omega), enc_im (by omega) e, herm_long hY hb (by omega) (by omega)]
  simp

theorem ld_long_mid_re {k b m : ℕ} (hk : k < l1) (hm0 : 0 < m) (hm : ido = 2 * m) (hb2 : 2 * b < ip) :
    ld (tab (ido * ip * l1) (rows (ido * ip) Y)) (ix ido ip (ido - 1) (2 * b) k)
      = .ok (Y k (m + ido * b)).re := by
  have e : ido - 1 + ido * (2 * b) = 2 * (m + ido * b) - 1 := by
    have : ido * (2 * b) = 2 * (ido * b) := by ring
    omega
  rw [ld_long hk (by omega) (by omega), enc_re (by omega) e]

theorem ld_long_mid_im {k b m : ℕ} (hk : k < l1) (hm0 : 0 < m) (hm : ido = 2 * m) (hb2 : 2 * b + 1 < ip) :
    ld (tab (ido * ip * l1) (rows (ido * ip) Y)) (ix ido ip 0 (2 * b + 1) k)
      = .ok (Y k (m + ido * b)).im := by
  have e : 0 + ido * (2 * b + 1) = 2 * (m + ido * b) := by
    have : ido * (2 * b + 1) = 2 * (ido * b) + ido := by ring
    omega
  rw [ld_long hk (by omega) (by omega), enc_im (by omega) e]

/-- 1823 the product with the twiddle factor -/
theorem mulCH_fills {wa : List ℝ} (hw : TwOk wa ip ido) {k c x : ℕ} {d : ℂ} (hk : k < l1) (hx : x + 1 < ip)
    (hc0 : 0 < c) (hc : 2 * c < ido) (hd : d = sft false ip (fun b => Y k (c + ido * b)) (x + 1)) :
    Fills (ido * ip * l1) (rows ido (bstage ip ido l1 Y)) (mulCH wa ido l1 (2 * c) k x d)
      (fun n => n = ix ido l1 (2 * c) k (x + 1) ∨ n = ix ido l1 (2 * c - 1) k (x + 1)) := by
  obtain ⟨h1, h2⟩ := hw x c hx hc0 hc
  unfold mulCH
  simp only [h1, h2, Out.ok_bind]
  have e : ido * ip * l1 = ido * l1 * ip := by ring
  apply fills_st_bind
  · rw [e]; exact ix_lt (by omega) hk hx
  · rw [bv_im hk hc0 hc, Nat.mul_comm c (x + 1), ← hd]
    simp [mulpm]
  · apply fills_st
    · rw [e]; exact ix_lt (by omega) hk hx
    · rw [bv_re hk hc0 hc, Nat.mul_comm c (x + 1), ← hd]
      simp [mulpm]

end bwd

/-! ### the loop nest of the fixed radices -/

section loop
variable {ip ido l1 : ℕ} {V : ℕ → ℝ} {mid : Bool} {bodyA bodyM : ℕ → List ℝ → Out (List ℝ)}
  {bodyB : ℕ → ℕ → List ℝ → Out (List ℝ)}

theorem fills_pure {L : ℕ} {V : ℕ → ℝ} : Fills L V (fun ch => pure ch) (fun _ => False) := by
  intro S ch hc
  exact ⟨ch, rfl, hc.mono (by rintro n _ (h | h); exact h; exact h.elim)⟩

theorem radLoop_fills {N : ℕ} {TA TM : ℕ → ℕ → Prop} {TB : ℕ → ℕ → ℕ → Prop} (hido : 0 < ido)
    (hA : ∀ k, k < l1 → Fills N V (bodyA k) (TA k))
    (hM : ∀ k m, k < l1 → 0 < m → ido = 2 * m → mid = true → Fills N V (bodyM k) (TM k))
    (hB : ∀ k c, k < l1 → 0 < c → 2 * c < ido → Fills N V (bodyB k (2 * c)) (TB k c)) :
    Fills N V (radLoop mid ido l1 bodyA bodyM bodyB)
      (fun n => ∃ k, k < l1 ∧ (TA k n ∨ (mid = true ∧ ido % 2 = 0 ∧ TM k n) ∨ ∃ c, 0 < c ∧ 2 * c < ido ∧ TB k c n)) := by
  unfold radLoop
  apply Fills.mono
  · apply fills_bind
    · exact fills_forN hA
    · apply fills_bind (T := fun n => ∃ k, k < l1 ∧ mid = true ∧ ido % 2 = 0 ∧ TM k n)
      · by_cases h : mid = true ∧ ido % 2 = 0
        · simp only [if_pos h]
          apply Fills.mono
          · exact fills_forN (T := TM) (fun k hk => hM k (ido / 2) hk (by omega) (by omega) h.1)
          · rintro n _ ⟨k, hk, _, _, h3⟩; exact ⟨k, hk, h3⟩
        · simp only [if_neg h]
          apply fills_pure.mono
          rintro n _ ⟨k, hk, h1, h2, h3⟩
          exact h ⟨h1, h2⟩
      · show Fills N V _ (fun n => ∃ k, k < l1 ∧ ∃ c, 0 < c ∧ 2 * c < ido ∧ TB k c n)
        by_cases h : ido ≤ (if mid then 2 else 1)
        · simp only [if_pos h]
          apply fills_pure.mono
          rintro n _ ⟨k, hk, c, h1, h2, h3⟩
          cases mid <;> simp at h <;> omega
        · simp only [if_neg h]
          apply Fills.mono
          · exact fills_forN (T := fun k n => ∃ i0, i0 < (ido - 1) / 2 ∧ TB k (i0 + 1) n) (fun k hk =>
              fills_forN (fun i0 hi0 => hB k (i0 + 1) hk (by omega) (by omega)))
          · rintro n _ ⟨k, hk, c, h1, h2, h3⟩
            exact ⟨k, hk, c - 1, by omega, by rw [Nat.sub_add_cancel h1]; exact h3⟩
  · rintro n _ ⟨k, hk, h | ⟨h1, h2, h3⟩ | ⟨c, h1, h2, h3⟩⟩
    · exact Or.inl ⟨k, hk, h⟩
    · exact Or.inr (Or.inl ⟨k, hk, h1, h2, h3⟩)
    · exact Or.inr (Or.inr ⟨k, hk, c, h1, h2, h3⟩)

/-- forward: everything is written -/
theorem radfLoop_ok (hip : 0 < ip) (hido : 0 < ido) (hodd : mid = true ∨ ido % 2 = 1)
    (hA : ∀ k, k < l1 → Fills (ido * ip * l1) V (bodyA k) (fun n => n = ix ido ip 0 0 k ∨
      (∃ b, 0 < b ∧ 2 * b ≤ ip ∧ n = ix ido ip (ido - 1) (2 * b - 1) k) ∨
      ∃ b, 0 < b ∧ 2 * b < ip ∧ n = ix ido ip 0 (2 * b) k))
    (hM : ∀ k m, k < l1 → 0 < m → ido = 2 * m → mid = true → Fills (ido * ip * l1) V (bodyM k) (fun n =>
      (∃ b, 2 * b < ip ∧ n = ix ido ip (ido - 1) (2 * b) k) ∨
      ∃ b, 2 * b + 1 < ip ∧ n = ix ido ip 0 (2 * b + 1) k))
    (hB : ∀ k c, k < l1 → 0 < c → 2 * c < ido → Fills (ido * ip * l1) V (bodyB k (2 * c)) (fun n =>
      (∃ b, 2 * b < ip ∧ (n = ix ido ip (2 * c - 1) (2 * b) k ∨ n = ix ido ip (2 * c) (2 * b) k)) ∨
      ∃ b, 0 < b ∧ 2 * b ≤ ip ∧
        (n = ix ido ip (ido - 2 * c - 1) (2 * b - 1) k ∨ n = ix ido ip (ido - 2 * c) (2 * b - 1) k)))
    {ch : List ℝ} (hc : ch.length = ido * ip * l1) :
    radLoop mid ido l1 bodyA bodyM bodyB ch = .ok (tab (ido * ip * l1) V) := by
  refine fills_all (radLoop_fills hido hA hM hB) ?_ hc
  intro n hn
  obtain ⟨h1, h2, h3⟩ := ix_cases hn
  have e : n = ix ido ip (n % ido) (n / ido % ip) (n / ido / ip) := ix_eq.symm
  generalize n % ido = a at h1 e
  generalize n / ido % ip = b at h2 e
  generalize n / ido / ip = k at h3 e
  refine ⟨k, h3, ?_⟩
  rcases Nat.mod_two_eq_zero_or_one b with hb | hb
  · obtain ⟨b', rfl⟩ : ∃ b', b = 2 * b' := ⟨b / 2, by omega⟩
    by_cases ha0 : a = 0
    · subst ha0
      by_cases hb0 : b' = 0
      · subst hb0; exact Or.inl (Or.inl e)
      · exact Or.inl (Or.inr (Or.inr ⟨b', by omega, h2, e⟩))
    · by_cases hae : a = ido - 1 ∧ ido % 2 = 0
      · obtain ⟨rfl, hae⟩ := hae
        have hmid : mid = true := hodd.resolve_right (by omega)
        exact Or.inr (Or.inl ⟨hmid, hae, Or.inl ⟨b', h2, e⟩⟩)
      · refine Or.inr (Or.inr ⟨(a + 1) / 2, by omega, by omega, Or.inl ⟨b', h2, ?_⟩⟩)
        rcases Nat.mod_two_eq_zero_or_one a with h | h
        · right; rw [show 2 * ((a + 1) / 2) = a by omega]; exact e
        · left; rw [show 2 * ((a + 1) / 2) - 1 = a by omega]; exact e
  · obtain ⟨b', hb', rfl⟩ : ∃ b', 0 < b' ∧ b = 2 * b' - 1 := ⟨b / 2 + 1, by omega, by omega⟩
    by_cases hae : a = ido - 1
    · subst hae
      exact Or.inl (Or.inr (Or.inl ⟨b', hb', by omega, e⟩))
    · by_cases ha0 : a = 0 ∧ ido % 2 = 0
      · obtain ⟨rfl, ha0⟩ := ha0
        have hmid : mid = true := hodd.resolve_right (by omega)
        refine Or.inr (Or.inl ⟨hmid, ha0, Or.inr ⟨b' - 1, by omega, ?_⟩⟩)
        rw [show 2 * (b' - 1) + 1 = 2 * b' - 1 by omega]; exact e
      · refine Or.inr (Or.inr ⟨(ido - a) / 2, by omega, by omega, Or.inr ⟨b', hb', by omega, ?_⟩⟩)
        rcases Nat.mod_two_eq_zero_or_one (ido - a) with h | h
        · right; rw [show ido - 2 * ((ido - a) / 2) = a by omega]; exact e
        · left; rw [show ido - 2 * ((ido - a) / 2) - 1 = a by omega]; exact e

/-- backward: everything is written -/
theorem radbLoop_ok (hip : 0 < ip) (hido : 0 < ido) (hodd : mid = true ∨ ido % 2 = 1)
    (hA : ∀ k, k < l1 → Fills (ido * ip * l1) V (bodyA k) (fun n => ∃ j, j < ip ∧ n = ix ido l1 0 k j))
    (hM : ∀ k m, k < l1 → 0 < m → ido = 2 * m → mid = true → Fills (ido * ip * l1) V (bodyM k) (fun n =>
      ∃ j, j < ip ∧ n = ix ido l1 (ido - 1) k j))
    (hB : ∀ k c, k < l1 → 0 < c → 2 * c < ido → Fills (ido * ip * l1) V (bodyB k (2 * c)) (fun n =>
      ∃ j, j < ip ∧ (n = ix ido l1 (2 * c) k j ∨ n = ix ido l1 (2 * c - 1) k j)))
    {ch : List ℝ} (hc : ch.length = ido * ip * l1) :
    radLoop mid ido l1 bodyA bodyM bodyB ch = .ok (tab (ido * ip * l1) V) := by
  refine fills_all (radLoop_fills hido hA hM hB) ?_ hc
  intro n hn
  have hn' : n < ido * l1 * ip := by rw [Nat.mul_right_comm]; exact hn
  obtain ⟨h1, h2, h3⟩ := ix_cases hn'
  have e : n = ix ido l1 (n % ido) (n / ido % l1) (n / ido / l1) := ix_eq.symm
  generalize n % ido = a at h1 e
  generalize n / ido % l1 = k at h2 e
  generalize n / ido / l1 = j at h3 e
  refine ⟨k, h2, ?_⟩
  by_cases ha0 : a = 0
  · subst ha0; exact Or.inl ⟨j, h3, e⟩
  · by_cases hae : a = ido - 1 ∧ ido % 2 = 0
    · obtain ⟨rfl, hae⟩ := hae
      have hmid : mid = true := hodd.resolve_right (by omega)
      exact Or.inr (Or.inl ⟨hmid, hae, j, h3, e⟩)
    · refine Or.inr (Or.inr ⟨(a + 1) / 2, by omega, by omega, j, h3, ?_⟩)
      rcases Nat.mod_two_eq_zero_or_one a with h | h
      · left; rw [show 2 * ((a + 1) / 2) = a by omega]; exact e
      · right; rw [show 2 * ((a + 1) / 2) - 1 = a by omega]; exact e

end loop

end Verif.Pocket
