import Verif.Cpp
import Mathlib.Analysis.SpecialFunctions.Trigonometric.Basic
import Mathlib.Analysis.Complex.Trigonometric

/-!
# Model of the bundled complex FFT  (include/dspbb/PocketFFT/pocketfft_hdronly.h)

`FFT.hpp` hands every transform to the bundled copy of PocketFFT.  This file models the complex
transforms: twiddle table, the factorisation, every butterfly pass, the plan and Bluestein's algorithm.

Conventions.  `T` is the exact field (`cmplx<T>` is `ℂ`), so rounding is not modelled.  Buffers are
lists with bounds-checked access (`ld`, `st`); indices are `size_t` and the model uses natural numbers:
none of the subtractions below can be reached with a larger second operand (the theorems would fail
otherwise, since the truncated index would address a wrong element).  The trigonometric literals of the
passes (`0.8660254037844386467637231707529362L`...) are the exact sines and cosines here; how far the
literals are from them is theorem `C77_literals`.
-/

namespace Verif.Pocket
open Complex

/-- reading `m[n]` -/
def ld {α : Type u} (m : List α) (n : ℕ) : Out α :=
  match m[n]? with
  | some x => .ok x
  | none => .ub

/-- writing `m[n] = v` -/
def st {α : Type u} (m : List α) (n : ℕ) (v : α) : Out (List α) :=
  if n < m.length then .ok (m.set n v) else .ub

/-- The index lambda `[a+ido*(b+dim*c)]` of every pass (`CC`, `CH`, `CX`, `C1`): e.g. 742-745. -/
def ix (ido dim a b c : ℕ) : ℕ := a + ido * (b + dim * c)

/-- The index lambda of the twiddles, `WA(x,i) = wa[i-1+x*(ido-1)]`: e.g. 746-747. -/
def wx (ido x i : ℕ) : ℕ := i - 1 + x * (ido - 1)

/-! ### complex helpers -/

/-- 258-264 `cmplx::special_mul<fwd>`, 274-278 `special_mul<fwd>` -/
def smul (fwd : Bool) (v w : ℂ) : ℂ :=
  if fwd then ⟨v.re * w.re + v.im * w.im, v.im * w.re - v.re * w.im⟩
  else ⟨v.re * w.re - v.im * w.im, v.re * w.im + v.im * w.re⟩

/-- 282-283 `ROTX90<fwd>` -/
def rotx90 (fwd : Bool) (a : ℂ) : ℂ :=
  ⟨if fwd then a.im else -a.im, if fwd then -a.re else a.re⟩

/-- The literal `cos (2 π j / n)` of the passes. -/
noncomputable def cR (n j : ℕ) : ℝ := Real.cos (2 * Real.pi * j / n)

/-- The literal `(fwd ? -1 : 1) * sin (2 π j / n)` of the passes. -/
noncomputable def cI (fwd : Bool) (n j : ℕ) : ℝ := (if fwd then -1 else 1) * Real.sin (2 * Real.pi * j / n)

/-- The literal `hsqt2 = 0.707106781186547524400844362104849L`. -/
noncomputable def hsqt2 : ℝ := 1 / Real.sqrt 2

/-- 1019-1026 `ROTX45<fwd>` -/
noncomputable def rotx45 (fwd : Bool) (a : ℂ) : ℂ :=
  if fwd then ⟨hsqt2 * (a.re + a.im), hsqt2 * (a.im - a.re)⟩
  else ⟨hsqt2 * (a.re - a.im), hsqt2 * (a.im + a.re)⟩

/-- 1027-1034 `ROTX135<fwd>` -/
noncomputable def rotx135 (fwd : Bool) (a : ℂ) : ℂ :=
  if fwd then ⟨hsqt2 * (a.im - a.re), hsqt2 * (-a.re - a.im)⟩
  else ⟨hsqt2 * (-a.re - a.im), hsqt2 * (a.re - a.im)⟩

/-! ### twiddle factors: 288-360 `sincos_2pibyn` -/

/-- 295-327 `sincos_2pibyn::calc` with the exact `ang = π / (4 n)` -/
noncomputable def octant (x n : ℕ) (ang : ℝ) : ℂ :=
  let x := 8 * x
  if x < 4 * n then
    if x < 2 * n then
      if x < n then ⟨Real.cos (x * ang), Real.sin (x * ang)⟩
      else ⟨Real.sin ((2 * n - x : ℕ) * ang), Real.cos ((2 * n - x : ℕ) * ang)⟩
    else
      let x := x - 2 * n
      if x < n then ⟨-Real.sin (x * ang), Real.cos (x * ang)⟩
      else ⟨-Real.cos ((2 * n - x : ℕ) * ang), Real.sin ((2 * n - x : ℕ) * ang)⟩
  else
    let x := 8 * n - x
    if x < 2 * n then
      if x < n then ⟨Real.cos (x * ang), -Real.sin (x * ang)⟩
      else ⟨Real.sin ((2 * n - x : ℕ) * ang), -Real.cos ((2 * n - x : ℕ) * ang)⟩
    else
      let x := x - 2 * n
      if x < n then ⟨-Real.sin (x * ang), -Real.cos (x * ang)⟩
      else ⟨-Real.cos ((2 * n - x : ℕ) * ang), -Real.sin ((2 * n - x : ℕ) * ang)⟩

/-- The members of `sincos_2pibyn`: 292-293 (`mask` is always `2 ^ shift - 1`). -/
structure SinCos where
  N : ℕ
  shift : ℕ
  v1 : List ℂ
  v2 : List ℂ

/-- 330-347 the constructor.  The two tables are written front to back by the loops 341-342, 345-346;
they are modelled as the lists those loops produce. -/
noncomputable def sincos (n : ℕ) : Out SinCos := do
  let ang : ℝ := 0.25 * Real.pi / n
  let nval := (n + 2) / 2
  let shift ← whileN (nval + 1) (fun s : ℕ => decide (2 ^ s * 2 ^ s < nval)) (fun s => .ok (s + 1)) 1
  let mask := 2 ^ shift - 1
  let v1 := (List.range (mask + 1)).map fun i => if i = 0 then (⟨1, 0⟩ : ℂ) else octant i n ang
  let v2 := (List.range ((nval + mask) / (mask + 1))).map fun i =>
    if i = 0 then (⟨1, 0⟩ : ℂ) else octant (i * (mask + 1)) n ang
  pure ⟨n, shift, v1, v2⟩

/-- 349-359 `operator[]`; `idx & mask` and `idx >> shift` are the remainder and quotient by `2 ^ shift`. -/
def SinCos.get (t : SinCos) (idx : ℕ) : Out ℂ :=
  if 2 * idx ≤ t.N then do
    let x1 ← ld t.v1 (idx % 2 ^ t.shift)
    let x2 ← ld t.v2 (idx / 2 ^ t.shift)
    pure ⟨x1.re * x2.re - x1.im * x2.im, x1.re * x2.im + x1.im * x2.re⟩
  else do
    let idx := t.N - idx
    let x1 ← ld t.v1 (idx % 2 ^ t.shift)
    let x2 ← ld t.v2 (idx / 2 ^ t.shift)
    pure ⟨x1.re * x2.re - x1.im * x2.im, -(x1.re * x2.im + x1.im * x2.re)⟩

/-! ### the butterfly passes -/

/-- The loop nest that the text of `pass2` ... `pass11` repeats: `bodyA k` is the code for index 0,
`bodyB k i` the code for the indices from 1 on; e.g. 749-765, 799-817. -/
def passLoop {α : Type} (ido l1 : ℕ) (bodyA : ℕ → List α → Out (List α)) (bodyB : ℕ → ℕ → List α → Out (List α))
    (ch : List α) : Out (List α) :=
  if ido = 1 then forN l1 bodyA ch
  else forN l1 (fun k ch => do
    let ch ← bodyA k ch
    forN (ido - 1) (fun i0 ch => bodyB k (i0 + 1) ch) ch) ch

/-- 738-766 `pass2` -/
def pass2 (fwd : Bool) (ido l1 : ℕ) (cc ch wa : List ℂ) : Out (List ℂ) :=
  passLoop ido l1
    (fun k ch => do
      let x0 ← ld cc (ix ido 2 0 0 k)
      let x1 ← ld cc (ix ido 2 0 1 k)
      let ch ← st ch (ix ido l1 0 k 0) (x0 + x1)
      st ch (ix ido l1 0 k 1) (x0 - x1))
    (fun k i ch => do
      let x0 ← ld cc (ix ido 2 i 0 k)
      let x1 ← ld cc (ix ido 2 i 1 k)
      let ch ← st ch (ix ido l1 i k 0) (x0 + x1)
      let w0 ← ld wa (wx ido 0 i)
      st ch (ix ido l1 i k 1) (smul fwd (x0 - x1) w0))
    ch

/-- 772-784 the arithmetic of `POCKETFFT_PARTSTEP3a/b`: `(ca + cb, ca - cb)` -/
def part3 (t0 t1 t2 : ℂ) (twr twi : ℝ) : ℂ × ℂ :=
  let ca : ℂ := t0 + t1 * (twr : ℂ)
  let cb : ℂ := ⟨-t2.im * twi, t2.re * twi⟩
  (ca + cb, ca - cb)

/-- 768-818 `pass3` -/
noncomputable def pass3 (fwd : Bool) (ido l1 : ℕ) (cc ch wa : List ℂ) : Out (List ℂ) :=
  let tw1r := cR 3 1
  let tw1i := cI fwd 3 1
  passLoop ido l1
    (fun k ch => do
      let t0 ← ld cc (ix ido 3 0 0 k)
      let x1 ← ld cc (ix ido 3 0 1 k)
      let x2 ← ld cc (ix ido 3 0 2 k)
      let t1 := x1 + x2
      let t2 := x1 - x2
      let ch ← st ch (ix ido l1 0 k 0) (t0 + t1)
      let p := part3 t0 t1 t2 tw1r tw1i
      let ch ← st ch (ix ido l1 0 k 1) p.1
      st ch (ix ido l1 0 k 2) p.2)
    (fun k i ch => do
      let t0 ← ld cc (ix ido 3 i 0 k)
      let x1 ← ld cc (ix ido 3 i 1 k)
      let x2 ← ld cc (ix ido 3 i 2 k)
      let t1 := x1 + x2
      let t2 := x1 - x2
      let ch ← st ch (ix ido l1 i k 0) (t0 + t1)
      let p := part3 t0 t1 t2 tw1r tw1i
      let w0 ← ld wa (wx ido 0 i)
      let ch ← st ch (ix ido l1 i k 1) (smul fwd p.1 w0)
      let w1 ← ld wa (wx ido 1 i)
      st ch (ix ido l1 i k 2) (smul fwd p.2 w1))
    ch

/-- 824-869 `pass4` -/
def pass4 (fwd : Bool) (ido l1 : ℕ) (cc ch wa : List ℂ) : Out (List ℂ) :=
  passLoop ido l1
    (fun k ch => do
      let x0 ← ld cc (ix ido 4 0 0 k)
      let x2 ← ld cc (ix ido 4 0 2 k)
      let t2 := x0 + x2
      let t1 := x0 - x2
      let x1 ← ld cc (ix ido 4 0 1 k)
      let x3 ← ld cc (ix ido 4 0 3 k)
      let t3 := x1 + x3
      let t4 := rotx90 fwd (x1 - x3)
      let ch ← st ch (ix ido l1 0 k 0) (t2 + t3)
      let ch ← st ch (ix ido l1 0 k 2) (t2 - t3)
      let ch ← st ch (ix ido l1 0 k 1) (t1 + t4)
      st ch (ix ido l1 0 k 3) (t1 - t4))
    (fun k i ch => do
      let x0 ← ld cc (ix ido 4 i 0 k)
      let x1 ← ld cc (ix ido 4 i 1 k)
      let x2 ← ld cc (ix ido 4 i 2 k)
      let x3 ← ld cc (ix ido 4 i 3 k)
      let t2 := x0 + x2
      let t1 := x0 - x2
      let t3 := x1 + x3
      let t4 := rotx90 fwd (x1 - x3)
      let ch ← st ch (ix ido l1 i k 0) (t2 + t3)
      let w0 ← ld wa (wx ido 0 i)
      let ch ← st ch (ix ido l1 i k 1) (smul fwd (t1 + t4) w0)
      let w1 ← ld wa (wx ido 1 i)
      let ch ← st ch (ix ido l1 i k 2) (smul fwd (t2 - t3) w1)
      let w2 ← ld wa (wx ido 2 i)
      st ch (ix ido l1 i k 3) (smul fwd (t1 - t4) w2))
    ch

/-- 878-897 the arithmetic of `POCKETFFT_PARTSTEP5a/b` -/
def part5 (t0 t1 t2 t3 t4 : ℂ) (twar twbr twai twbi : ℝ) : ℂ × ℂ :=
  let ca : ℂ := ⟨t0.re + twar * t1.re + twbr * t2.re, t0.im + twar * t1.im + twbr * t2.im⟩
  let cb : ℂ := ⟨-(twai * t4.im + twbi * t3.im), twai * t4.re + twbi * t3.re⟩
  (ca + cb, ca - cb)

/-- 871-936 `pass5` -/
noncomputable def pass5 (fwd : Bool) (ido l1 : ℕ) (cc ch wa : List ℂ) : Out (List ℂ) :=
  let tw1r := cR 5 1
  let tw1i := cI fwd 5 1
  let tw2r := cR 5 2
  let tw2i := cI fwd 5 2
  passLoop ido l1
    (fun k ch => do
      let t0 ← ld cc (ix ido 5 0 0 k)
      let x1 ← ld cc (ix ido 5 0 1 k)
      let x4 ← ld cc (ix ido 5 0 4 k)
      let x2 ← ld cc (ix ido 5 0 2 k)
      let x3 ← ld cc (ix ido 5 0 3 k)
      let t1 := x1 + x4
      let t4 := x1 - x4
      let t2 := x2 + x3
      let t3 := x2 - x3
      let ch ← st ch (ix ido l1 0 k 0) ⟨t0.re + t1.re + t2.re, t0.im + t1.im + t2.im⟩
      let p := part5 t0 t1 t2 t3 t4 tw1r tw2r tw1i tw2i
      let ch ← st ch (ix ido l1 0 k 1) p.1
      let ch ← st ch (ix ido l1 0 k 4) p.2
      let p := part5 t0 t1 t2 t3 t4 tw2r tw1r tw2i (-tw1i)
      let ch ← st ch (ix ido l1 0 k 2) p.1
      st ch (ix ido l1 0 k 3) p.2)
    (fun k i ch => do
      let t0 ← ld cc (ix ido 5 i 0 k)
      let x1 ← ld cc (ix ido 5 i 1 k)
      let x4 ← ld cc (ix ido 5 i 4 k)
      let x2 ← ld cc (ix ido 5 i 2 k)
      let x3 ← ld cc (ix ido 5 i 3 k)
      let t1 := x1 + x4
      let t4 := x1 - x4
      let t2 := x2 + x3
      let t3 := x2 - x3
      let ch ← st ch (ix ido l1 i k 0) ⟨t0.re + t1.re + t2.re, t0.im + t1.im + t2.im⟩
      let p := part5 t0 t1 t2 t3 t4 tw1r tw2r tw1i tw2i
      let w0 ← ld wa (wx ido 0 i)
      let ch ← st ch (ix ido l1 i k 1) (smul fwd p.1 w0)
      let w3 ← ld wa (wx ido 3 i)
      let ch ← st ch (ix ido l1 i k 4) (smul fwd p.2 w3)
      let p := part5 t0 t1 t2 t3 t4 tw2r tw1r tw2i (-tw1i)
      let w1 ← ld wa (wx ido 1 i)
      let ch ← st ch (ix ido l1 i k 2) (smul fwd p.1 w1)
      let w2 ← ld wa (wx ido 2 i)
      st ch (ix ido l1 i k 3) (smul fwd p.2 w2))
    ch

/-- 950-958 the arithmetic of `POCKETFFT_PARTSTEP7a0` -/
def part7 (t1 t2 t3 t4 t5 t6 t7 : ℂ) (x1 x2 x3 y1 y2 y3 : ℝ) : ℂ × ℂ :=
  let ca : ℂ := ⟨t1.re + x1 * t2.re + x2 * t3.re + x3 * t4.re, t1.im + x1 * t2.im + x2 * t3.im + x3 * t4.im⟩
  let cb : ℂ := ⟨-(y1 * t7.im + y2 * t6.im + y3 * t5.im), y1 * t7.re + y2 * t6.re + y3 * t5.re⟩
  (ca + cb, ca - cb)

/-- 942-1012 `pass7` -/
noncomputable def pass7 (fwd : Bool) (ido l1 : ℕ) (cc ch wa : List ℂ) : Out (List ℂ) :=
  let tw1r := cR 7 1
  let tw1i := cI fwd 7 1
  let tw2r := cR 7 2
  let tw2i := cI fwd 7 2
  let tw3r := cR 7 3
  let tw3i := cI fwd 7 3
  passLoop ido l1
    (fun k ch => do
      let t1 ← ld cc (ix ido 7 0 0 k)
      let x1 ← ld cc (ix ido 7 0 1 k)
      let x6 ← ld cc (ix ido 7 0 6 k)
      let x2 ← ld cc (ix ido 7 0 2 k)
      let x5 ← ld cc (ix ido 7 0 5 k)
      let x3 ← ld cc (ix ido 7 0 3 k)
      let x4 ← ld cc (ix ido 7 0 4 k)
      let t2 := x1 + x6
      let t7 := x1 - x6
      let t3 := x2 + x5
      let t6 := x2 - x5
      let t4 := x3 + x4
      let t5 := x3 - x4
      let ch ← st ch (ix ido l1 0 k 0) ⟨t1.re + t2.re + t3.re + t4.re, t1.im + t2.im + t3.im + t4.im⟩
      let p := part7 t1 t2 t3 t4 t5 t6 t7 tw1r tw2r tw3r tw1i tw2i tw3i
      let ch ← st ch (ix ido l1 0 k 1) p.1
      let ch ← st ch (ix ido l1 0 k 6) p.2
      let p := part7 t1 t2 t3 t4 t5 t6 t7 tw2r tw3r tw1r tw2i (-tw3i) (-tw1i)
      let ch ← st ch (ix ido l1 0 k 2) p.1
      let ch ← st ch (ix ido l1 0 k 5) p.2
      let p := part7 t1 t2 t3 t4 t5 t6 t7 tw3r tw1r tw2r tw3i (-tw1i) tw2i
      let ch ← st ch (ix ido l1 0 k 3) p.1
      st ch (ix ido l1 0 k 4) p.2)
    (fun k i ch => do
      let t1 ← ld cc (ix ido 7 i 0 k)
      let x1 ← ld cc (ix ido 7 i 1 k)
      let x6 ← ld cc (ix ido 7 i 6 k)
      let x2 ← ld cc (ix ido 7 i 2 k)
      let x5 ← ld cc (ix ido 7 i 5 k)
      let x3 ← ld cc (ix ido 7 i 3 k)
      let x4 ← ld cc (ix ido 7 i 4 k)
      let t2 := x1 + x6
      let t7 := x1 - x6
      let t3 := x2 + x5
      let t6 := x2 - x5
      let t4 := x3 + x4
      let t5 := x3 - x4
      let ch ← st ch (ix ido l1 i k 0) ⟨t1.re + t2.re + t3.re + t4.re, t1.im + t2.im + t3.im + t4.im⟩
      let p := part7 t1 t2 t3 t4 t5 t6 t7 tw1r tw2r tw3r tw1i tw2i tw3i
      let w0 ← ld wa (wx ido 0 i)
      let ch ← st ch (ix ido l1 i k 1) (smul fwd p.1 w0)
      let w5 ← ld wa (wx ido 5 i)
      let ch ← st ch (ix ido l1 i k 6) (smul fwd p.2 w5)
      let p := part7 t1 t2 t3 t4 t5 t6 t7 tw2r tw3r tw1r tw2i (-tw3i) (-tw1i)
      let w1 ← ld wa (wx ido 1 i)
      let ch ← st ch (ix ido l1 i k 2) (smul fwd p.1 w1)
      let w4 ← ld wa (wx ido 4 i)
      let ch ← st ch (ix ido l1 i k 5) (smul fwd p.2 w4)
      let p := part7 t1 t2 t3 t4 t5 t6 t7 tw3r tw1r tw2r tw3i (-tw1i) tw2i
      let w2 ← ld wa (wx ido 2 i)
      let ch ← st ch (ix ido l1 i k 3) (smul fwd p.1 w2)
      let w3 ← ld wa (wx ido 3 i)
      st ch (ix ido l1 i k 4) (smul fwd p.2 w3))
    ch

/-- 1036-1118 `pass8` -/
noncomputable def pass8 (fwd : Bool) (ido l1 : ℕ) (cc ch wa : List ℂ) : Out (List ℂ) :=
  passLoop ido l1
    (fun k ch => do
      let x1 ← ld cc (ix ido 8 0 1 k)
      let x5 ← ld cc (ix ido 8 0 5 k)
      let a1 := x1 + x5
      let a5 := x1 - x5
      let x3 ← ld cc (ix ido 8 0 3 k)
      let x7 ← ld cc (ix ido 8 0 7 k)
      let a3 := x3 + x7
      let a7 := x3 - x7
      let (a1, a3) := (a1 + a3, a1 - a3)
      let a3 := rotx90 fwd a3
      let a7 := rotx90 fwd a7
      let (a5, a7) := (a5 + a7, a5 - a7)
      let a5 := rotx45 fwd a5
      let a7 := rotx135 fwd a7
      let x0 ← ld cc (ix ido 8 0 0 k)
      let x4 ← ld cc (ix ido 8 0 4 k)
      let a0 := x0 + x4
      let a4 := x0 - x4
      let x2 ← ld cc (ix ido 8 0 2 k)
      let x6 ← ld cc (ix ido 8 0 6 k)
      let a2 := x2 + x6
      let a6 := x2 - x6
      let ch ← st ch (ix ido l1 0 k 0) ((a0 + a2) + a1)
      let ch ← st ch (ix ido l1 0 k 4) ((a0 + a2) - a1)
      let ch ← st ch (ix ido l1 0 k 2) ((a0 - a2) + a3)
      let ch ← st ch (ix ido l1 0 k 6) ((a0 - a2) - a3)
      let a6 := rotx90 fwd a6
      let ch ← st ch (ix ido l1 0 k 1) ((a4 + a6) + a5)
      let ch ← st ch (ix ido l1 0 k 5) ((a4 + a6) - a5)
      let ch ← st ch (ix ido l1 0 k 3) ((a4 - a6) + a7)
      st ch (ix ido l1 0 k 7) ((a4 - a6) - a7))
    (fun k i ch => do
      let x1 ← ld cc (ix ido 8 i 1 k)
      let x5 ← ld cc (ix ido 8 i 5 k)
      let a1 := x1 + x5
      let a5 := x1 - x5
      let x3 ← ld cc (ix ido 8 i 3 k)
      let x7 ← ld cc (ix ido 8 i 7 k)
      let a3 := x3 + x7
      let a7 := x3 - x7
      let a7 := rotx90 fwd a7
      let (a1, a3) := (a1 + a3, a1 - a3)
      let a3 := rotx90 fwd a3
      let (a5, a7) := (a5 + a7, a5 - a7)
      let a5 := rotx45 fwd a5
      let a7 := rotx135 fwd a7
      let x0 ← ld cc (ix ido 8 i 0 k)
      let x4 ← ld cc (ix ido 8 i 4 k)
      let a0 := x0 + x4
      let a4 := x0 - x4
      let x2 ← ld cc (ix ido 8 i 2 k)
      let x6 ← ld cc (ix ido 8 i 6 k)
      let a2 := x2 + x6
      let a6 := x2 - x6
      let (a0, a2) := (a0 + a2, a0 - a2)
      let ch ← st ch (ix ido l1 i k 0) (a0 + a1)
      let w3 ← ld wa (wx ido 3 i)
      let ch ← st ch (ix ido l1 i k 4) (smul fwd (a0 - a1) w3)
      let w1 ← ld wa (wx ido 1 i)
      let ch ← st ch (ix ido l1 i k 2) (smul fwd (a2 + a3) w1)
      let w5 ← ld wa (wx ido 5 i)
      let ch ← st ch (ix ido l1 i k 6) (smul fwd (a2 - a3) w5)
      let a6 := rotx90 fwd a6
      let (a4, a6) := (a4 + a6, a4 - a6)
      let w0 ← ld wa (wx ido 0 i)
      let ch ← st ch (ix ido l1 i k 1) (smul fwd (a4 + a5) w0)
      let w4 ← ld wa (wx ido 4 i)
      let ch ← st ch (ix ido l1 i k 5) (smul fwd (a4 - a5) w4)
      let w2 ← ld wa (wx ido 2 i)
      let ch ← st ch (ix ido l1 i k 3) (smul fwd (a6 + a7) w2)
      let w6 ← ld wa (wx ido 6 i)
      st ch (ix ido l1 i k 7) (smul fwd (a6 - a7) w6))
    ch

/-- 1131-1138 the arithmetic of `POCKETFFT_PARTSTEP11a0` -/
def part11 (t1 t2 t3 t4 t5 t6 t7 t8 t9 t10 t11 : ℂ) (x1 x2 x3 x4 x5 y1 y2 y3 y4 y5 : ℝ) : ℂ × ℂ :=
  let ca : ℂ := t1 + t2 * (x1 : ℂ) + t3 * (x2 : ℂ) + t4 * (x3 : ℂ) + t5 * (x4 : ℂ) + t6 * (x5 : ℂ)
  let cb : ℂ := ⟨-(y1 * t11.im + y2 * t10.im + y3 * t9.im + y4 * t8.im + y5 * t7.im),
    y1 * t11.re + y2 * t10.re + y3 * t9.re + y4 * t8.re + y5 * t7.re⟩
  (ca + cb, ca - cb)

/-- 1121-1202 `pass11` -/
noncomputable def pass11 (fwd : Bool) (ido l1 : ℕ) (cc ch wa : List ℂ) : Out (List ℂ) :=
  let tw1r := cR 11 1
  let tw1i := cI fwd 11 1
  let tw2r := cR 11 2
  let tw2i := cI fwd 11 2
  let tw3r := cR 11 3
  let tw3i := cI fwd 11 3
  let tw4r := cR 11 4
  let tw4i := cI fwd 11 4
  let tw5r := cR 11 5
  let tw5i := cI fwd 11 5
  passLoop ido l1
    (fun k ch => do
      let t1 ← ld cc (ix ido 11 0 0 k)
      let z1 ← ld cc (ix ido 11 0 1 k)
      let z10 ← ld cc (ix ido 11 0 10 k)
      let z2 ← ld cc (ix ido 11 0 2 k)
      let z9 ← ld cc (ix ido 11 0 9 k)
      let z3 ← ld cc (ix ido 11 0 3 k)
      let z8 ← ld cc (ix ido 11 0 8 k)
      let z4 ← ld cc (ix ido 11 0 4 k)
      let z7 ← ld cc (ix ido 11 0 7 k)
      let z5 ← ld cc (ix ido 11 0 5 k)
      let z6 ← ld cc (ix ido 11 0 6 k)
      let t2 := z1 + z10
      let t11 := z1 - z10
      let t3 := z2 + z9
      let t10 := z2 - z9
      let t4 := z3 + z8
      let t9 := z3 - z8
      let t5 := z4 + z7
      let t8 := z4 - z7
      let t6 := z5 + z6
      let t7 := z5 - z6
      let ch ← st ch (ix ido l1 0 k 0)
        ⟨t1.re + t2.re + t3.re + t4.re + t5.re + t6.re, t1.im + t2.im + t3.im + t4.im + t5.im + t6.im⟩
      let p := part11 t1 t2 t3 t4 t5 t6 t7 t8 t9 t10 t11 tw1r tw2r tw3r tw4r tw5r tw1i tw2i tw3i tw4i tw5i
      let ch ← st ch (ix ido l1 0 k 1) p.1
      let ch ← st ch (ix ido l1 0 k 10) p.2
      let p := part11 t1 t2 t3 t4 t5 t6 t7 t8 t9 t10 t11
        tw2r tw4r tw5r tw3r tw1r tw2i tw4i (-tw5i) (-tw3i) (-tw1i)
      let ch ← st ch (ix ido l1 0 k 2) p.1
      let ch ← st ch (ix ido l1 0 k 9) p.2
      let p := part11 t1 t2 t3 t4 t5 t6 t7 t8 t9 t10 t11
        tw3r tw5r tw2r tw1r tw4r tw3i (-tw5i) (-tw2i) tw1i tw4i
      let ch ← st ch (ix ido l1 0 k 3) p.1
      let ch ← st ch (ix ido l1 0 k 8) p.2
      let p := part11 t1 t2 t3 t4 t5 t6 t7 t8 t9 t10 t11
        tw4r tw3r tw1r tw5r tw2r tw4i (-tw3i) tw1i tw5i (-tw2i)
      let ch ← st ch (ix ido l1 0 k 4) p.1
      let ch ← st ch (ix ido l1 0 k 7) p.2
      let p := part11 t1 t2 t3 t4 t5 t6 t7 t8 t9 t10 t11
        tw5r tw1r tw4r tw2r tw3r tw5i (-tw1i) tw4i (-tw2i) tw3i
      let ch ← st ch (ix ido l1 0 k 5) p.1
      st ch (ix ido l1 0 k 6) p.2)
    (fun k i ch => do
      let t1 ← ld cc (ix ido 11 i 0 k)
      let z1 ← ld cc (ix ido 11 i 1 k)
      let z10 ← ld cc (ix ido 11 i 10 k)
      let z2 ← ld cc (ix ido 11 i 2 k)
      let z9 ← ld cc (ix ido 11 i 9 k)
      let z3 ← ld cc (ix ido 11 i 3 k)
      let z8 ← ld cc (ix ido 11 i 8 k)
      let z4 ← ld cc (ix ido 11 i 4 k)
      let z7 ← ld cc (ix ido 11 i 7 k)
      let z5 ← ld cc (ix ido 11 i 5 k)
      let z6 ← ld cc (ix ido 11 i 6 k)
      let t2 := z1 + z10
      let t11 := z1 - z10
      let t3 := z2 + z9
      let t10 := z2 - z9
      let t4 := z3 + z8
      let t9 := z3 - z8
      let t5 := z4 + z7
      let t8 := z4 - z7
      let t6 := z5 + z6
      let t7 := z5 - z6
      let ch ← st ch (ix ido l1 i k 0)
        ⟨t1.re + t2.re + t3.re + t4.re + t5.re + t6.re, t1.im + t2.im + t3.im + t4.im + t5.im + t6.im⟩
      let p := part11 t1 t2 t3 t4 t5 t6 t7 t8 t9 t10 t11 tw1r tw2r tw3r tw4r tw5r tw1i tw2i tw3i tw4i tw5i
      let w0 ← ld wa (wx ido 0 i)
      let ch ← st ch (ix ido l1 i k 1) (smul fwd p.1 w0)
      let w9 ← ld wa (wx ido 9 i)
      let ch ← st ch (ix ido l1 i k 10) (smul fwd p.2 w9)
      let p := part11 t1 t2 t3 t4 t5 t6 t7 t8 t9 t10 t11
        tw2r tw4r tw5r tw3r tw1r tw2i tw4i (-tw5i) (-tw3i) (-tw1i)
      let w1 ← ld wa (wx ido 1 i)
      let ch ← st ch (ix ido l1 i k 2) (smul fwd p.1 w1)
      let w8 ← ld wa (wx ido 8 i)
      let ch ← st ch (ix ido l1 i k 9) (smul fwd p.2 w8)
      let p := part11 t1 t2 t3 t4 t5 t6 t7 t8 t9 t10 t11
        tw3r tw5r tw2r tw1r tw4r tw3i (-tw5i) (-tw2i) tw1i tw4i
      let w2 ← ld wa (wx ido 2 i)
      let ch ← st ch (ix ido l1 i k 3) (smul fwd p.1 w2)
      let w7 ← ld wa (wx ido 7 i)
      let ch ← st ch (ix ido l1 i k 8) (smul fwd p.2 w7)
      let p := part11 t1 t2 t3 t4 t5 t6 t7 t8 t9 t10 t11
        tw4r tw3r tw1r tw5r tw2r tw4i (-tw3i) tw1i tw5i (-tw2i)
      let w3 ← ld wa (wx ido 3 i)
      let ch ← st ch (ix ido l1 i k 4) (smul fwd p.1 w3)
      let w6 ← ld wa (wx ido 6 i)
      let ch ← st ch (ix ido l1 i k 7) (smul fwd p.2 w6)
      let p := part11 t1 t2 t3 t4 t5 t6 t7 t8 t9 t10 t11
        tw5r tw1r tw4r tw2r tw3r tw5i (-tw1i) tw4i (-tw2i) tw3i
      let w4 ← ld wa (wx ido 4 i)
      let ch ← st ch (ix ido l1 i k 5) (smul fwd p.1 w4)
      let w5 ← ld wa (wx ido 5 i)
      st ch (ix ido l1 i k 6) (smul fwd p.2 w5))
    ch

/-! ### the generic pass -/

/-- 1229-1232 the local table `wal` -/
def passgWal (fwd : Bool) (ip : ℕ) (csarr : List ℂ) : Out (List ℂ) := do
  let wal ← st (List.replicate ip (0 : ℂ)) 0 ⟨1, 0⟩
  forN (ip - 1) (fun i0 wal => do
    let i := i0 + 1
    let c ← ld csarr i
    st wal i ⟨c.re, if fwd then -c.im else c.im⟩) wal

/-- 1234-1240 the sums and differences of mirrored inputs, from `cc` to `ch` -/
def passgFold (ido ip l1 : ℕ) (cc ch : List ℂ) : Out (List ℂ) := do
  let ipph := (ip + 1) / 2
  let ch ← forN l1 (fun k ch => forN ido (fun i ch => do
    let x ← ld cc (ix ido ip i 0 k)
    st ch (ix ido l1 i k 0) x) ch) ch
  forN (ipph - 1) (fun j0 ch => forN l1 (fun k ch => forN ido (fun i ch => do
    let j := j0 + 1
    let jc := ip - j
    let x ← ld cc (ix ido ip i j k)
    let y ← ld cc (ix ido ip i jc k)
    let ch ← st ch (ix ido l1 i k j) (x + y)
    st ch (ix ido l1 i k jc) (x - y)) ch) ch) ch

/-- 1241-1248 output 0, from `ch` to `cc` -/
def passgZero (ido ip l1 : ℕ) (ch cc : List ℂ) : Out (List ℂ) := do
  let ipph := (ip + 1) / 2
  forN l1 (fun k cc => forN ido (fun i cc => do
    let tmp ← ld ch (ix ido l1 i k 0)
    let tmp ← forN (ipph - 1) (fun j0 tmp => do
      let x ← ld ch (ix ido l1 i k (j0 + 1))
      pure (tmp + x)) tmp
    st cc (ix ido l1 i k 0) tmp) cc) cc

/-- 1252-1258: the first three terms of outputs `l` and `lc` -/
def passgStart (ip idl1 l : ℕ) (wal ch cc : List ℂ) : Out (List ℂ) :=
  let lc := ip - l
  forN idl1 (fun ik cc => do
    let w1 ← ld wal l
    let w2 ← ld wal (2 * l)
    let h0 ← ld ch (ik + idl1 * 0)
    let h1 ← ld ch (ik + idl1 * 1)
    let h2 ← ld ch (ik + idl1 * 2)
    let cc ← st cc (ik + idl1 * l)
      ⟨h0.re + w1.re * h1.re + w2.re * h2.re, h0.im + w1.re * h1.im + w2.re * h2.im⟩
    let g1 ← ld ch (ik + idl1 * (ip - 1))
    let g2 ← ld ch (ik + idl1 * (ip - 2))
    st cc (ik + idl1 * lc)
      ⟨-w1.im * g1.im - w2.im * g2.im, w1.im * g1.re + w2.im * g2.re⟩) cc

/-- 1264, 1266, 1278 `iwal+=l; if (iwal>ip) iwal-=ip;` -/
def stepWal (ip l iwal : ℕ) : ℕ :=
  let iwal := iwal + l
  if iwal > ip then iwal - ip else iwal

/-- 1268-1274 two more terms -/
def passgTwo (ip idl1 l j jc : ℕ) (xwal xwal2 : ℂ) (ch cc : List ℂ) : Out (List ℂ) :=
  let lc := ip - l
  forN idl1 (fun ik cc => do
    let a ← ld cc (ik + idl1 * l)
    let hj ← ld ch (ik + idl1 * j)
    let hj1 ← ld ch (ik + idl1 * (j + 1))
    let cc ← st cc (ik + idl1 * l)
      ⟨a.re + (hj.re * xwal.re + hj1.re * xwal2.re), a.im + (hj.im * xwal.re + hj1.im * xwal2.re)⟩
    let b ← ld cc (ik + idl1 * lc)
    let gj ← ld ch (ik + idl1 * jc)
    let gj1 ← ld ch (ik + idl1 * (jc - 1))
    st cc (ik + idl1 * lc)
      ⟨b.re - (gj.im * xwal.im + gj1.im * xwal2.im), b.im + (gj.re * xwal.im + gj1.re * xwal2.im)⟩) cc

/-- 1280-1286 one more term -/
def passgOne (ip idl1 l j jc : ℕ) (xwal : ℂ) (ch cc : List ℂ) : Out (List ℂ) :=
  let lc := ip - l
  forN idl1 (fun ik cc => do
    let a ← ld cc (ik + idl1 * l)
    let hj ← ld ch (ik + idl1 * j)
    let cc ← st cc (ik + idl1 * l) ⟨a.re + hj.re * xwal.re, a.im + hj.im * xwal.re⟩
    let b ← ld cc (ik + idl1 * lc)
    let gj ← ld ch (ik + idl1 * jc)
    st cc (ik + idl1 * lc) ⟨b.re - gj.im * xwal.im, b.im + gj.re * xwal.im⟩) cc

/-- The loop variables `j`, `jc`, `iwal` of 1260-1287 and the array they work on. -/
structure GState where
  j : ℕ
  jc : ℕ
  iwal : ℕ
  cc : List ℂ

/-- 1249-1288: outputs `l` and `ip - l` before the last butterfly -/
def passgPair (ip idl1 l : ℕ) (wal ch cc : List ℂ) : Out (List ℂ) := do
  let ipph := (ip + 1) / 2
  let cc ← passgStart ip idl1 l wal ch cc
  let s : GState := ⟨3, ip - 3, 2 * l, cc⟩
  let s ← whileN (ip + 1) (fun s : GState => decide (s.j < ipph - 1)) (fun s => do
    let iwal := stepWal ip l s.iwal
    let xwal ← ld wal iwal
    let iwal := stepWal ip l iwal
    let xwal2 ← ld wal iwal
    let cc ← passgTwo ip idl1 l s.j s.jc xwal xwal2 ch s.cc
    pure (⟨s.j + 2, s.jc - 2, iwal, cc⟩ : GState)) s
  let s ← whileN (ip + 1) (fun s : GState => decide (s.j < ipph)) (fun s => do
    let iwal := stepWal ip l s.iwal
    let xwal ← ld wal iwal
    let cc ← passgOne ip idl1 l s.j s.jc xwal ch s.cc
    pure (⟨s.j + 1, s.jc - 1, iwal, cc⟩ : GState)) s
  pure s.cc

/-- 1290-1315 shuffling and twiddling, in place -/
def passgTwiddle (fwd : Bool) (ido ip l1 : ℕ) (wa cc : List ℂ) : Out (List ℂ) :=
  let ipph := (ip + 1) / 2
  let idl1 := ido * l1
  if ido = 1 then
    forN (ipph - 1) (fun j0 cc => forN idl1 (fun ik cc => do
      let j := j0 + 1
      let jc := ip - j
      let t1 ← ld cc (ik + idl1 * j)
      let t2 ← ld cc (ik + idl1 * jc)
      let cc ← st cc (ik + idl1 * j) (t1 + t2)
      st cc (ik + idl1 * jc) (t1 - t2)) cc) cc
  else
    forN (ipph - 1) (fun j0 cc => forN l1 (fun k cc => do
      let j := j0 + 1
      let jc := ip - j
      let t1 ← ld cc (ix ido l1 0 k j)
      let t2 ← ld cc (ix ido l1 0 k jc)
      let cc ← st cc (ix ido l1 0 k j) (t1 + t2)
      let cc ← st cc (ix ido l1 0 k jc) (t1 - t2)
      forN (ido - 1) (fun i0 cc => do
        let i := i0 + 1
        let x ← ld cc (ix ido l1 i k j)
        let y ← ld cc (ix ido l1 i k jc)
        let x1 := x + y
        let x2 := x - y
        let w ← ld wa ((j - 1) * (ido - 1) + i - 1)
        let cc ← st cc (ix ido l1 i k j) (smul fwd x1 w)
        let w ← ld wa ((jc - 1) * (ido - 1) + i - 1)
        st cc (ix ido l1 i k jc) (smul fwd x2 w)) cc) cc) cc

/-- 1209-1316 `passg`: works in both buffers and leaves the result in `cc`. -/
def passg (fwd : Bool) (ido ip l1 : ℕ) (cc ch wa csarr : List ℂ) : Out (List ℂ × List ℂ) := do
  let wal ← passgWal fwd ip csarr
  let ch ← passgFold ido ip l1 cc ch
  let cc ← passgZero ido ip l1 ch cc
  let cc ← forN ((ip + 1) / 2 - 1) (fun l0 cc => passgPair ip (ido * l1) (l0 + 1) wal ch cc) cc
  let cc ← passgTwiddle fwd ido ip l1 wa cc
  pure (cc, ch)

/-! ### the plan -/

/-- 725-729 `fctdata`.  The tables `tw` and `tws` point into one allocation `mem` (732, 1416, 1423); the
model gives every factor its own lists. -/
structure Factor where
  fct : ℕ
  tw : List ℂ
  tws : List ℂ

/-- 1371-1392 `factorize`: the list of factors -/
def cfactorize (length : ℕ) : Out (List ℕ) := do
  let s ← whileN (length + 1) (fun s : List ℕ × ℕ => decide (s.2 % 8 = 0))
    (fun s => .ok (s.1 ++ [8], s.2 / 8)) ([], length)
  let s ← whileN (length + 1) (fun s : List ℕ × ℕ => decide (s.2 % 4 = 0))
    (fun s => .ok (s.1 ++ [4], s.2 / 4)) s
  let s := if s.2 % 2 = 0 then
      let f := s.1 ++ [2]
      -- std::swap(fact[0].fct, fact.back().fct)
      ((f.set 0 (f.getLastD 0)).set (f.length - 1) (f.headD 0), s.2 / 2)
    else s
  let s ← whileN (length + 1) (fun s : (List ℕ × ℕ) × ℕ => decide (s.2 * s.2 ≤ s.1.2))
    (fun s => do
      let t ← whileN (length + 1) (fun t : List ℕ × ℕ => decide (t.2 % s.2 = 0))
        (fun t => .ok (t.1 ++ [s.2], t.2 / s.2)) s.1
      pure (t, s.2 + 2)) (s, 3)
  let s := s.1
  pure (if s.2 > 1 then s.1 ++ [s.2] else s.1)

/-- 1413-1428 `comp_twiddle`: the tables of one factor.  The loops 1418-1420, 1425-1426 fill them front
to back; they are modelled as the lists the loops produce. -/
def ctwiddle (t : SinCos) (l1 ip ido : ℕ) : Out Factor := do
  let tw ← (List.range ((ip - 1) * (ido - 1))).mapM fun n =>
    t.get ((n / (ido - 1) + 1) * l1 * (n % (ido - 1) + 1))
  let tws ← if ip > 11 then (List.range ip).mapM fun j => t.get (j * l1 * ido) else pure []
  pure ⟨ip, tw, tws⟩

/-- 1408-1430 `comp_twiddle` -/
def ctwiddles (t : SinCos) (length : ℕ) : ℕ → List ℕ → Out (List Factor)
  | _, [] => pure []
  | l1, ip :: fs => do
    let f ← ctwiddle t l1 ip (length / (l1 * ip))
    let rest ← ctwiddles t length (l1 * ip) fs
    pure (f :: rest)

/-- 722-733 the members of `cfftp` -/
structure CPlan where
  length : ℕ
  fact : List Factor

/-- 1433-1441 the constructor of `cfftp` -/
noncomputable def cfftp (length : ℕ) : Out CPlan := do
  if length = 0 then .throws
  else if length = 1 then pure ⟨1, []⟩
  else do
    let fs ← cfactorize length
    let t ← sincos length
    let fact ← ctwiddles t length 1 fs
    pure ⟨length, fact⟩

/-- 1325-1351 the loop over the factors; `p1`, `p2` are the contents of the two buffers the pointers of
the same names point to, `inC` records whether `p1` points to `c`. -/
noncomputable def passAllLoop (fwd : Bool) (length : ℕ) :
    ℕ → List Factor → List ℂ → List ℂ → Bool → Out (List ℂ × Bool)
  | _, [], p1, _, inC => pure (p1, inC)
  | l1, f :: fs, p1, p2, inC => do
    let ip := f.fct
    let l2 := ip * l1
    let ido := length / l2
    if ip = 4 then do
      let p2 ← pass4 fwd ido l1 p1 p2 f.tw
      passAllLoop fwd length l2 fs p2 p1 (!inC)
    else if ip = 8 then do
      let p2 ← pass8 fwd ido l1 p1 p2 f.tw
      passAllLoop fwd length l2 fs p2 p1 (!inC)
    else if ip = 2 then do
      let p2 ← pass2 fwd ido l1 p1 p2 f.tw
      passAllLoop fwd length l2 fs p2 p1 (!inC)
    else if ip = 3 then do
      let p2 ← pass3 fwd ido l1 p1 p2 f.tw
      passAllLoop fwd length l2 fs p2 p1 (!inC)
    else if ip = 5 then do
      let p2 ← pass5 fwd ido l1 p1 p2 f.tw
      passAllLoop fwd length l2 fs p2 p1 (!inC)
    else if ip = 7 then do
      let p2 ← pass7 fwd ido l1 p1 p2 f.tw
      passAllLoop fwd length l2 fs p2 p1 (!inC)
    else if ip = 11 then do
      let p2 ← pass11 fwd ido l1 p1 p2 f.tw
      passAllLoop fwd length l2 fs p2 p1 (!inC)
    else do
      let r ← passg fwd ido ip l1 p1 p2 f.tw f.tws
      passAllLoop fwd length l2 fs r.1 r.2 inC

open Classical in
/-- 1318-1364 `pass_all`.  `scratch` is the uninitialised content of the buffer `ch`. -/
noncomputable def passAll (p : CPlan) (fwd : Bool) (fct : ℝ) (c scratch : List ℂ) : Out (List ℂ) :=
  if p.length = 1 then do
    let x ← ld c 0
    st c 0 (x * (fct : ℂ))
  else do
    let (p1, inC) ← passAllLoop fwd p.length 1 p.fact c scratch true
    if inC = false then
      if fct ≠ 1 then pure (p1.map (· * (fct : ℂ))) else pure p1
    else
      if fct ≠ 1 then pure (p1.map (· * (fct : ℂ))) else pure p1

/-- 1367-1368 `cfftp::exec` -/
noncomputable def CPlan.exec (p : CPlan) (c scratch : List ℂ) (fct : ℝ) (fwd : Bool) : Out (List ℂ) :=
  passAll p fwd fct c scratch

end Verif.Pocket
