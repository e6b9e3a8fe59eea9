import Verif.Model.PocketFFT

/-!
# Model of the bundled complex FFT over an arbitrary scalar type  (include/dspbb/PocketFFT/pocketfft_hdronly.h)

`Model/PocketFFT.lean` models the complex transforms with exact complex numbers.  Here the same butterflies, twiddle
multiplications and passes are written over any type `F` with `+`, `-`, `*` and negation, with the association of
every expression of the C++ text, so that `F` can be a floating point type.

Simplifications.
* One function `passF` stands for the text that `pass2` ... `pass11` and `passg` repeat: for every column it reads the
  inputs of one butterfly, computes the outputs, multiplies them by the twiddle factors and stores them.  The order
  in which the text interleaves these loads and stores is in `Model/PocketFFT.lean`; the two buffers are different
  memory and `passg` never reads what it has overwritten (C76), so the order does not change the values.
* The literals (`T0(0.866...L)`) and the twiddle factors are parameters; the theorems say how accurate they must be.
  `(fwd ? -1 : 1) * literal` is the literal or its negation.
* Contraction of `a*b+c` into one instruction is not modelled here.
-/

namespace Verif.PocketF
open Verif.Pocket (ld st ix wx passLoop stepWal)

/-- 225-226 `cmplx<T>` -/
structure Cx (F : Type) where
  re : F
  im : F

variable {F : Type} [Zero F] [Add F] [Sub F] [Mul F] [Neg F]

instance : Inhabited (Cx F) := ⟨⟨0, 0⟩⟩

/-- 249-251 `operator+` -/
instance : Add (Cx F) := ⟨fun a b => ⟨a.re + b.re, a.im + b.im⟩⟩

/-- 252-254 `operator-` -/
instance : Sub (Cx F) := ⟨fun a b => ⟨a.re - b.re, a.im - b.im⟩⟩

/-- 246-248 `operator*` with a real number -/
def Cx.scale (a : Cx F) (c : F) : Cx F := ⟨a.re * c, a.im * c⟩

/-- 258-264 `cmplx::special_mul<fwd>`, 274-278 `special_mul<fwd>` -/
def smul (fwd : Bool) (v w : Cx F) : Cx F :=
  if fwd then ⟨v.re * w.re + v.im * w.im, v.im * w.re - v.re * w.im⟩
  else ⟨v.re * w.re - v.im * w.im, v.re * w.im + v.im * w.re⟩

/-- 282-283 `ROTX90<fwd>` -/
def rotx90 (fwd : Bool) (a : Cx F) : Cx F :=
  ⟨if fwd then a.im else -a.im, if fwd then -a.re else a.re⟩

/-- 1019-1026 `ROTX45<fwd>` -/
def rotx45 (hsqt2 : F) (fwd : Bool) (a : Cx F) : Cx F :=
  if fwd then ⟨hsqt2 * (a.re + a.im), hsqt2 * (a.im - a.re)⟩
  else ⟨hsqt2 * (a.re - a.im), hsqt2 * (a.im + a.re)⟩

/-- 1027-1034 `ROTX135<fwd>` -/
def rotx135 (hsqt2 : F) (fwd : Bool) (a : Cx F) : Cx F :=
  if fwd then ⟨hsqt2 * (a.im - a.re), hsqt2 * (-a.re - a.im)⟩
  else ⟨hsqt2 * (-a.re - a.im), hsqt2 * (a.re - a.im)⟩

/-- The literals of the passes: `cos n j` and `sin n j` for the angle `2 π j / n` (790-791, 908-911, 987-992,
1157-1166) and `hsqt2` (1021, 1029). -/
structure Lits (F : Type) where
  cos : ℕ → ℕ → F
  sin : ℕ → ℕ → F
  hsqt2 : F

/-- `(fwd ? -1 : 1) * literal`, e.g. 791 -/
def Lits.tw (L : Lits F) (fwd : Bool) (n j : ℕ) : F := if fwd then -L.sin n j else L.sin n j

/-! ### one butterfly of every radix: inputs `x 0, x 1, ...` to outputs -/

/-- 738-766 `pass2`, one butterfly -/
def core2 (x : ℕ → Cx F) : ℕ → Cx F
  | 0 => x 0 + x 1
  | _ => x 0 - x 1

/-- 772-784 the arithmetic of `POCKETFFT_PARTSTEP3a/b`: `(ca + cb, ca - cb)` -/
def part3 (t0 t1 t2 : Cx F) (twr twi : F) : Cx F × Cx F :=
  let ca : Cx F := t0 + t1.scale twr
  let cb : Cx F := ⟨-t2.im * twi, t2.re * twi⟩
  (ca + cb, ca - cb)

/-- 768-818 `pass3`, one butterfly -/
def core3 (L : Lits F) (fwd : Bool) (x : ℕ → Cx F) : ℕ → Cx F :=
  let t0 := x 0
  let t1 := x 1 + x 2
  let t2 := x 1 - x 2
  let p := part3 t0 t1 t2 (L.cos 3 1) (L.tw fwd 3 1)
  fun j => match j with
  | 0 => t0 + t1
  | 1 => p.1
  | _ => p.2

/-- 824-869 `pass4`, one butterfly -/
def core4 (fwd : Bool) (x : ℕ → Cx F) : ℕ → Cx F :=
  let t2 := x 0 + x 2
  let t1 := x 0 - x 2
  let t3 := x 1 + x 3
  let t4 := rotx90 fwd (x 1 - x 3)
  fun j => match j with
  | 0 => t2 + t3
  | 1 => t1 + t4
  | 2 => t2 - t3
  | _ => t1 - t4

/-- 878-897 the arithmetic of `POCKETFFT_PARTSTEP5a/b` -/
def part5 (t0 t1 t2 t3 t4 : Cx F) (twar twbr twai twbi : F) : Cx F × Cx F :=
  let ca : Cx F := ⟨t0.re + twar * t1.re + twbr * t2.re, t0.im + twar * t1.im + twbr * t2.im⟩
  let cb : Cx F := ⟨-(twai * t4.im + twbi * t3.im), twai * t4.re + twbi * t3.re⟩
  (ca + cb, ca - cb)

/-- 871-936 `pass5`, one butterfly.  `-tw1i` is a negation, 924. -/
def core5 (L : Lits F) (fwd : Bool) (x : ℕ → Cx F) : ℕ → Cx F :=
  let tw1r := L.cos 5 1
  let tw1i := L.tw fwd 5 1
  let tw2r := L.cos 5 2
  let tw2i := L.tw fwd 5 2
  let t0 := x 0
  let t1 := x 1 + x 4
  let t4 := x 1 - x 4
  let t2 := x 2 + x 3
  let t3 := x 2 - x 3
  let p := part5 t0 t1 t2 t3 t4 tw1r tw2r tw1i tw2i
  let q := part5 t0 t1 t2 t3 t4 tw2r tw1r tw2i (-tw1i)
  fun j => match j with
  | 0 => ⟨t0.re + t1.re + t2.re, t0.im + t1.im + t2.im⟩
  | 1 => p.1
  | 4 => p.2
  | 2 => q.1
  | _ => q.2

/-- 950-958 the arithmetic of `POCKETFFT_PARTSTEP7a0` -/
def part7 (t1 t2 t3 t4 t5 t6 t7 : Cx F) (x1 x2 x3 y1 y2 y3 : F) : Cx F × Cx F :=
  let ca : Cx F :=
    ⟨t1.re + x1 * t2.re + x2 * t3.re + x3 * t4.re, t1.im + x1 * t2.im + x2 * t3.im + x3 * t4.im⟩
  let cb : Cx F := ⟨-(y1 * t7.im + y2 * t6.im + y3 * t5.im), y1 * t7.re + y2 * t6.re + y3 * t5.re⟩
  (ca + cb, ca - cb)

/-- 942-1012 `pass7`, one butterfly -/
def core7 (L : Lits F) (fwd : Bool) (x : ℕ → Cx F) : ℕ → Cx F :=
  let tw1r := L.cos 7 1
  let tw1i := L.tw fwd 7 1
  let tw2r := L.cos 7 2
  let tw2i := L.tw fwd 7 2
  let tw3r := L.cos 7 3
  let tw3i := L.tw fwd 7 3
  let t1 := x 0
  let t2 := x 1 + x 6
  let t7 := x 1 - x 6
  let t3 := x 2 + x 5
  let t6 := x 2 - x 5
  let t4 := x 3 + x 4
  let t5 := x 3 - x 4
  let p := part7 t1 t2 t3 t4 t5 t6 t7 tw1r tw2r tw3r tw1i tw2i tw3i
  let q := part7 t1 t2 t3 t4 t5 t6 t7 tw2r tw3r tw1r tw2i (-tw3i) (-tw1i)
  let r := part7 t1 t2 t3 t4 t5 t6 t7 tw3r tw1r tw2r tw3i (-tw1i) tw2i
  fun j => match j with
  | 0 => ⟨t1.re + t2.re + t3.re + t4.re, t1.im + t2.im + t3.im + t4.im⟩
  | 1 => p.1
  | 6 => p.2
  | 2 => q.1
  | 5 => q.2
  | 3 => r.1
  | _ => r.2

/-- 1036-1118 `pass8`, one butterfly -/
def core8 (L : Lits F) (fwd : Bool) (x : ℕ → Cx F) : ℕ → Cx F :=
  let a1 := x 1 + x 5
  let a5 := x 1 - x 5
  let a3 := x 3 + x 7
  let a7 := rotx90 fwd (x 3 - x 7)
  let b1 := a1 + a3
  let b3 := rotx90 fwd (a1 - a3)
  let b5 := rotx45 L.hsqt2 fwd (a5 + a7)
  let b7 := rotx135 L.hsqt2 fwd (a5 - a7)
  let a0 := x 0 + x 4
  let a4 := x 0 - x 4
  let a2 := x 2 + x 6
  let a6 := rotx90 fwd (x 2 - x 6)
  fun j => match j with
  | 0 => (a0 + a2) + b1
  | 4 => (a0 + a2) - b1
  | 2 => (a0 - a2) + b3
  | 6 => (a0 - a2) - b3
  | 1 => (a4 + a6) + b5
  | 5 => (a4 + a6) - b5
  | 3 => (a4 - a6) + b7
  | _ => (a4 - a6) - b7

/-- 1131-1138 the arithmetic of `POCKETFFT_PARTSTEP11a0` -/
def part11 (t1 t2 t3 t4 t5 t6 t7 t8 t9 t10 t11 : Cx F) (x1 x2 x3 x4 x5 y1 y2 y3 y4 y5 : F) : Cx F × Cx F :=
  let ca : Cx F := t1 + t2.scale x1 + t3.scale x2 + t4.scale x3 + t5.scale x4 + t6.scale x5
  let cb : Cx F := ⟨-(y1 * t11.im + y2 * t10.im + y3 * t9.im + y4 * t8.im + y5 * t7.im),
    y1 * t11.re + y2 * t10.re + y3 * t9.re + y4 * t8.re + y5 * t7.re⟩
  (ca + cb, ca - cb)

/-- 1121-1202 `pass11`, one butterfly -/
def core11 (L : Lits F) (fwd : Bool) (x : ℕ → Cx F) : ℕ → Cx F :=
  let c := fun j => L.cos 11 j
  let s := fun j => L.tw fwd 11 j
  let t1 := x 0
  let t2 := x 1 + x 10
  let t11 := x 1 - x 10
  let t3 := x 2 + x 9
  let t10 := x 2 - x 9
  let t4 := x 3 + x 8
  let t9 := x 3 - x 8
  let t5 := x 4 + x 7
  let t8 := x 4 - x 7
  let t6 := x 5 + x 6
  let t7 := x 5 - x 6
  let part := part11 t1 t2 t3 t4 t5 t6 t7 t8 t9 t10 t11
  let p := part (c 1) (c 2) (c 3) (c 4) (c 5) (s 1) (s 2) (s 3) (s 4) (s 5)
  let q := part (c 2) (c 4) (c 5) (c 3) (c 1) (s 2) (s 4) (-s 5) (-s 3) (-s 1)
  let r := part (c 3) (c 5) (c 2) (c 1) (c 4) (s 3) (-s 5) (-s 2) (s 1) (s 4)
  let v := part (c 4) (c 3) (c 1) (c 5) (c 2) (s 4) (-s 3) (s 1) (s 5) (-s 2)
  let z := part (c 5) (c 1) (c 4) (c 2) (c 3) (s 5) (-s 1) (s 4) (-s 2) (s 3)
  fun j => match j with
  | 0 => ⟨t1.re + t2.re + t3.re + t4.re + t5.re + t6.re, t1.im + t2.im + t3.im + t4.im + t5.im + t6.im⟩
  | 1 => p.1
  | 10 => p.2
  | 2 => q.1
  | 9 => q.2
  | 3 => r.1
  | 8 => r.2
  | 4 => v.1
  | 7 => v.2
  | 5 => z.1
  | _ => z.2

/-- 1234-1240: the sums and differences of mirrored inputs of one column -/
def gfold (ip : ℕ) (x : ℕ → Cx F) (c : ℕ) : Cx F :=
  if c = 0 then x 0 else if 2 * c < ip then x c + x (ip - c) else x (ip - c) - x c

/-- 1241-1248: output 0 of one column -/
def gzero (ip : ℕ) (h : ℕ → Cx F) : Out (Cx F) :=
  forN ((ip + 1) / 2 - 1) (fun j0 tmp => .ok (tmp + h (j0 + 1))) (h 0)

/-- The loop variables `j`, `jc`, `iwal` of 1260-1287 and the two elements of one column they work on. -/
structure GCol (F : Type) where
  j : ℕ
  jc : ℕ
  iwal : ℕ
  a : Cx F
  b : Cx F

/-- 1252-1287: outputs `l` and `ip - l` of one column before the last butterfly -/
def gpair (ip l : ℕ) (wal : List (Cx F)) (h : ℕ → Cx F) : Out (Cx F × Cx F) := do
  let ipph := (ip + 1) / 2
  let w1 ← ld wal l
  let w2 ← ld wal (2 * l)
  let a : Cx F := ⟨(h 0).re + w1.re * (h 1).re + w2.re * (h 2).re, (h 0).im + w1.re * (h 1).im + w2.re * (h 2).im⟩
  let b : Cx F := ⟨-w1.im * (h (ip - 1)).im - w2.im * (h (ip - 2)).im,
    w1.im * (h (ip - 1)).re + w2.im * (h (ip - 2)).re⟩
  let s : GCol F := ⟨3, ip - 3, 2 * l, a, b⟩
  let s ← whileN (ip + 1) (fun s : GCol F => decide (s.j < ipph - 1)) (fun s => do
    let iwal := stepWal ip l s.iwal
    let xwal ← ld wal iwal
    let iwal := stepWal ip l iwal
    let xwal2 ← ld wal iwal
    let hj := h s.j
    let hj1 := h (s.j + 1)
    let gj := h s.jc
    let gj1 := h (s.jc - 1)
    pure (⟨s.j + 2, s.jc - 2, iwal,
      ⟨s.a.re + (hj.re * xwal.re + hj1.re * xwal2.re), s.a.im + (hj.im * xwal.re + hj1.im * xwal2.re)⟩,
      ⟨s.b.re - (gj.im * xwal.im + gj1.im * xwal2.im), s.b.im + (gj.re * xwal.im + gj1.re * xwal2.im)⟩⟩ : GCol F)) s
  let s ← whileN (ip + 1) (fun s : GCol F => decide (s.j < ipph)) (fun s => do
    let iwal := stepWal ip l s.iwal
    let xwal ← ld wal iwal
    let hj := h s.j
    let gj := h s.jc
    pure (⟨s.j + 1, s.jc - 1, iwal,
      ⟨s.a.re + hj.re * xwal.re, s.a.im + hj.im * xwal.re⟩,
      ⟨s.b.re - gj.im * xwal.im, s.b.im + gj.re * xwal.im⟩⟩ : GCol F)) s
  pure (s.a, s.b)

/-- 1229-1232 the local table `wal`; `one` is the constant `1.`. -/
def gwal (one : F) (fwd : Bool) (csarr : List (Cx F)) : List (Cx F) :=
  (List.range csarr.length).map fun i =>
    if i = 0 then ⟨one, 0⟩
    else ⟨(csarr.getD i ⟨0, 0⟩).re, if fwd then -(csarr.getD i ⟨0, 0⟩).im else (csarr.getD i ⟨0, 0⟩).im⟩

/-- 1234-1316 `passg`, output `j` of one column before the multiplication with the twiddle factor: 1241-1248 for
output 0, 1249-1288 and the sums and differences of 1291-1314 for the others -/
def coreG (wal : List (Cx F)) (ip : ℕ) (x : ℕ → Cx F) (j : ℕ) : Out (Cx F) :=
  let h := gfold ip x
  if j = 0 then gzero ip h
  else if 2 * j < ip then do
    let p ← gpair ip j wal h
    pure (p.1 + p.2)
  else do
    let p ← gpair ip (ip - j) wal h
    pure (p.1 - p.2)

/-! ### passes, plan, execution -/

/-- One pass of radix `ip` whose butterfly is `core`: 738-766 `pass2`, 768-818 `pass3`, 824-869 `pass4`, 871-936
`pass5`, 942-1012 `pass7`, 1036-1118 `pass8`, 1121-1202 `pass11`, 1209-1316 `passg`.  Index 0 is not multiplied by
twiddle factors, and neither is output 0. -/
def passF (ip : ℕ) (core : (ℕ → Cx F) → ℕ → Out (Cx F)) (fwd : Bool) (ido l1 : ℕ) (cc ch wa : List (Cx F)) :
    Out (List (Cx F)) :=
  passLoop ido l1
    (fun k ch => do
      let xs ← (List.range ip).mapM (fun b => ld cc (ix ido ip 0 b k))
      forN ip (fun j ch => do
        let y ← core (fun b => xs.getD b ⟨0, 0⟩) j
        st ch (ix ido l1 0 k j) y) ch)
    (fun k i ch => do
      let xs ← (List.range ip).mapM (fun b => ld cc (ix ido ip i b k))
      forN ip (fun j ch => do
        let y ← core (fun b => xs.getD b ⟨0, 0⟩) j
        if j = 0 then st ch (ix ido l1 i k j) y
        else do
          let w ← ld wa (wx ido (j - 1) i)
          st ch (ix ido l1 i k j) (smul fwd y w)) ch)
    ch

/-- 725-729 `fctdata` -/
structure Factor (F : Type) where
  fct : ℕ
  tw : List (Cx F)
  tws : List (Cx F)

/-- 1328-1349 the choice of the butterfly -/
def coreOf (L : Lits F) (one : F) (fwd : Bool) (f : Factor F) (x : ℕ → Cx F) (j : ℕ) : Out (Cx F) :=
  if f.fct = 4 then .ok (core4 fwd x j)
  else if f.fct = 8 then .ok (core8 L fwd x j)
  else if f.fct = 2 then .ok (core2 x j)
  else if f.fct = 3 then .ok (core3 L fwd x j)
  else if f.fct = 5 then .ok (core5 L fwd x j)
  else if f.fct = 7 then .ok (core7 L fwd x j)
  else if f.fct = 11 then .ok (core11 L fwd x j)
  else coreG (gwal one fwd f.tws) f.fct x j

/-- 1413-1428 `comp_twiddle`: the tables of one factor, from the table `tw idx` of the values
`exp (2 π i idx / length)` -/
def ctwiddle (tw : ℕ → Cx F) (l1 ip ido : ℕ) : Factor F :=
  ⟨ip, (List.range ((ip - 1) * (ido - 1))).map fun n => tw ((n / (ido - 1) + 1) * l1 * (n % (ido - 1) + 1)),
    if ip > 11 then (List.range ip).map fun j => tw (j * l1 * ido) else []⟩

/-- 1408-1430 `comp_twiddle` -/
def ctwiddles (tw : ℕ → Cx F) (length : ℕ) : ℕ → List ℕ → List (Factor F)
  | _, [] => []
  | l1, ip :: fs => ctwiddle tw l1 ip (length / (l1 * ip)) :: ctwiddles tw length (l1 * ip) fs

/-- 1325-1351 the loop over the factors: `p1` is the buffer that holds the data, `p2` the other one.  (`passg`
leaves its result in the buffer it came from; only the contents are modelled.) -/
def passLoopAll (L : Lits F) (one : F) (fwd : Bool) (length : ℕ) :
    ℕ → List (Factor F) → List (Cx F) → List (Cx F) → Out (List (Cx F))
  | _, [], p1, _ => .ok p1
  | l1, f :: fs, p1, p2 => do
    let l2 := f.fct * l1
    let p2 ← passF f.fct (coreOf L one fwd f) fwd (length / l2) l1 p1 p2 f.tw
    passLoopAll L one fwd length l2 fs p2 p1

/-- 1318-1369 `cfftp::exec`, with the factors of 1371-1392 `factorize` and the tables of 1408-1430 `comp_twiddle`.
`fct = none` is `fct == 1`: no multiplication (1353-1363). -/
def cfftExec (L : Lits F) (one : F) (tw : ℕ → Cx F) (fwd : Bool) (fct : Option F) (c scratch : List (Cx F)) :
    Out (List (Cx F)) :=
  if c.length = 0 then .throws
  else if c.length = 1 then .ok (match fct with | none => c | some f => c.map (·.scale f))
  else do
    let fs ← Pocket.cfactorize c.length
    let p1 ← passLoopAll L one fwd c.length 1 (ctwiddles tw c.length 1 fs) c scratch
    .ok (match fct with | none => p1 | some f => p1.map (·.scale f))

/-! ### twiddle factors -/

/-- The operations of 288-360 `sincos_2pibyn<T>` beyond arithmetic, with `G` for `Thigh` and `F` for `T`:
conversion from `size_t` (303 and the following lines), `std::cos`, `std::sin`, 334 `Thigh(0.25L*pi/n)`, the constant
`Thigh(1)`, and the conversion `T(...)` of 354, 358. -/
structure TwOps (G F : Type) where
  ofSize : ℕ → G
  cos : G → G
  sin : G → G
  ang : ℕ → G
  one : G
  down : G → F

section
variable {G : Type} [Zero G] [Add G] [Sub G] [Mul G] [Neg G]

/-- 295-327 `sincos_2pibyn::calc` -/
def octant (T : TwOps G F) (x n : ℕ) : Cx G :=
  let ang := T.ang n
  let x := 8 * x
  if x < 4 * n then
    if x < 2 * n then
      if x < n then ⟨T.cos (T.ofSize x * ang), T.sin (T.ofSize x * ang)⟩
      else ⟨T.sin (T.ofSize (2 * n - x) * ang), T.cos (T.ofSize (2 * n - x) * ang)⟩
    else
      let x := x - 2 * n
      if x < n then ⟨-T.sin (T.ofSize x * ang), T.cos (T.ofSize x * ang)⟩
      else ⟨-T.cos (T.ofSize (2 * n - x) * ang), T.sin (T.ofSize (2 * n - x) * ang)⟩
  else
    let x := 8 * n - x
    if x < 2 * n then
      if x < n then ⟨T.cos (T.ofSize x * ang), -T.sin (T.ofSize x * ang)⟩
      else ⟨T.sin (T.ofSize (2 * n - x) * ang), -T.cos (T.ofSize (2 * n - x) * ang)⟩
    else
      let x := x - 2 * n
      if x < n then ⟨-T.sin (T.ofSize x * ang), -T.cos (T.ofSize x * ang)⟩
      else ⟨-T.cos (T.ofSize (2 * n - x) * ang), -T.sin (T.ofSize (2 * n - x) * ang)⟩

/-- 292-293 the members of `sincos_2pibyn` (`mask` is always `2 ^ shift - 1`) -/
structure SinCos (G : Type) where
  N : ℕ
  shift : ℕ
  v1 : List (Cx G)
  v2 : List (Cx G)

/-- 330-347 the constructor; the tables are modelled as the lists that the loops 341-342, 345-346 produce -/
def sincos (T : TwOps G F) (n : ℕ) : Out (SinCos G) := do
  let nval := (n + 2) / 2
  let shift ← whileN (nval + 1) (fun s : ℕ => decide (2 ^ s * 2 ^ s < nval)) (fun s => .ok (s + 1)) 1
  let mask := 2 ^ shift - 1
  let v1 := (List.range (mask + 1)).map fun i => if i = 0 then (⟨T.one, 0⟩ : Cx G) else octant T i n
  let v2 := (List.range ((nval + mask) / (mask + 1))).map fun i =>
    if i = 0 then (⟨T.one, 0⟩ : Cx G) else octant T (i * (mask + 1)) n
  pure ⟨n, shift, v1, v2⟩

/-- 349-359 `operator[]`; `idx & mask` and `idx >> shift` are the remainder and quotient by `2 ^ shift` -/
def SinCos.get (T : TwOps G F) (t : SinCos G) (idx : ℕ) : Out (Cx F) :=
  if 2 * idx ≤ t.N then do
    let x1 ← ld t.v1 (idx % 2 ^ t.shift)
    let x2 ← ld t.v2 (idx / 2 ^ t.shift)
    pure ⟨T.down (x1.re * x2.re - x1.im * x2.im), T.down (x1.re * x2.im + x1.im * x2.re)⟩
  else do
    let idx := t.N - idx
    let x1 ← ld t.v1 (idx % 2 ^ t.shift)
    let x2 ← ld t.v2 (idx / 2 ^ t.shift)
    pure ⟨T.down (x1.re * x2.re - x1.im * x2.im), -T.down (x1.re * x2.im + x1.im * x2.re)⟩

end

end Verif.PocketF
