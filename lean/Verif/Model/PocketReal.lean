import Verif.Model.PocketBlue

/-!
# Model of the bundled FFT, part 3: transforms of real data
(include/dspbb/PocketFFT/pocketfft_hdronly.h: `rfftp`, `fftblue::exec_r`, `pocketfft_r`, `general_r2c`,
`general_c2r`)

Conventions as in `Model/PocketFFT`.  Pairs of variables that hold a real and an imaginary part (`dr2`,
`di2`) are one complex number here.
-/

namespace Verif.Pocket
open Complex

/-- The index lambda of the twiddles, `WA(x,i) = wa[i+x*(ido-1)]`: e.g. 1473. -/
def rwx (ido x i : ℕ) : ℕ := i + x * (ido - 1)

/-- 1464-1467 `MULPM`: `(a+ib) = conj(c+id) * (e+if)` -/
def mulpm (c d e f : ℝ) : ℂ := ⟨c * e + d * f, c * f - d * e⟩

/-- `MULPM (dr,di,WA(x,i-2),WA(x,i-1),CC(i-1,k,x+1),CC(i,k,x+1))`: e.g. 1493, 1531-1532. -/
def mulCC (wa cc : List ℝ) (ido l1 i k x : ℕ) : Out ℂ := do
  let c ← ld wa (rwx ido x (i - 2))
  let d ← ld wa (rwx ido x (i - 1))
  let e ← ld cc (ix ido l1 (i - 1) k (x + 1))
  let f ← ld cc (ix ido l1 i k (x + 1))
  pure (mulpm c d e f)

/-- `MULPM (CH(i,k,x+1),CH(i-1,k,x+1),WA(x,i-2),WA(x,i-1),di,dr)`: e.g. 1816, 1855-1856; `d = dr + i di`. -/
def mulCH (wa : List ℝ) (ido l1 i k x : ℕ) (d : ℂ) (ch : List ℝ) : Out (List ℝ) := do
  let wr ← ld wa (rwx ido x (i - 2))
  let wi ← ld wa (rwx ido x (i - 1))
  let r := mulpm wr wi d.im d.re
  let ch ← st ch (ix ido l1 i k (x + 1)) r.re
  st ch (ix ido l1 (i - 1) k (x + 1)) r.im

/-- The loop nest that the text of `radf2` ... `radb5` repeats: first the elements 0 (`bodyA`), then, in the
radices 2 and 4 (`mid`), the middle ones of an even `ido` (`bodyM`), then the pairs at `i - 1`, `i` for
`i = 2, 4, ...` (`bodyB`); e.g. 1479-1496, 1517-1542. -/
def radLoop (mid : Bool) (ido l1 : ℕ) (bodyA bodyM : ℕ → List ℝ → Out (List ℝ))
    (bodyB : ℕ → ℕ → List ℝ → Out (List ℝ)) (ch : List ℝ) : Out (List ℝ) := do
  let ch ← forN l1 bodyA ch
  let ch ← (if mid ∧ ido % 2 = 0 then forN l1 bodyM ch else pure ch)
  if ido ≤ (if mid then 2 else 1) then pure ch
  else forN l1 (fun k ch => forN ((ido - 1) / 2) (fun i0 ch => bodyB k (2 * (i0 + 1)) ch) ch) ch

/-! ### forward -/

/-- 1469-1497 `radf2` -/
def radf2 (ido l1 : ℕ) (cc ch wa : List ℝ) : Out (List ℝ) :=
  radLoop true ido l1
    (fun k ch => do
      let a ← ld cc (ix ido l1 0 k 0)
      let b ← ld cc (ix ido l1 0 k 1)
      let ch ← st ch (ix ido 2 0 0 k) (a + b)
      st ch (ix ido 2 (ido - 1) 1 k) (a - b))
    (fun k ch => do
      let b ← ld cc (ix ido l1 (ido - 1) k 1)
      let ch ← st ch (ix ido 2 0 1 k) (-b)
      let a ← ld cc (ix ido l1 (ido - 1) k 0)
      st ch (ix ido 2 (ido - 1) 0 k) a)
    (fun k i ch => do
      let ic := ido - i
      let t2 ← mulCC wa cc ido l1 i k 0
      let a ← ld cc (ix ido l1 (i - 1) k 0)
      let ch ← st ch (ix ido 2 (i - 1) 0 k) (a + t2.re)
      let ch ← st ch (ix ido 2 (ic - 1) 1 k) (a - t2.re)
      let b ← ld cc (ix ido l1 i k 0)
      let ch ← st ch (ix ido 2 i 0 k) (t2.im + b)
      st ch (ix ido 2 ic 1 k) (t2.im - b))
    ch

/-- 1499-1504 `POCKETFFT_REARRANGE`: `(rx, ix)`, `(ry, iy)` -/
def rearrange (x y : ℂ) : ℂ × ℂ :=
  let t1 := x.re + y.re
  let t2 := y.re - x.re
  let t3 := x.im + y.im
  let t4 := x.im - y.im
  (⟨t1, t3⟩, ⟨t4, t2⟩)

/-- 1506-1543 `radf3` -/
noncomputable def radf3 (ido l1 : ℕ) (cc ch wa : List ℝ) : Out (List ℝ) :=
  let taur := cR 3 1
  let taui := cI false 3 1
  radLoop false ido l1
    (fun k ch => do
      let c0 ← ld cc (ix ido l1 0 k 0)
      let c1 ← ld cc (ix ido l1 0 k 1)
      let c2 ← ld cc (ix ido l1 0 k 2)
      let cr2 := c1 + c2
      let ch ← st ch (ix ido 3 0 0 k) (c0 + cr2)
      let ch ← st ch (ix ido 3 0 2 k) (taui * (c2 - c1))
      st ch (ix ido 3 (ido - 1) 1 k) (c0 + taur * cr2))
    (fun _ ch => pure ch)
    (fun k i ch => do
      let ic := ido - i
      let d2 ← mulCC wa cc ido l1 i k 0
      let d3 ← mulCC wa cc ido l1 i k 1
      let r := rearrange d2 d3
      let d2 := r.1
      let d3 := r.2
      let cr ← ld cc (ix ido l1 (i - 1) k 0)
      let ci ← ld cc (ix ido l1 i k 0)
      let ch ← st ch (ix ido 3 (i - 1) 0 k) (cr + d2.re)
      let ch ← st ch (ix ido 3 i 0 k) (ci + d2.im)
      let tr2 := cr + taur * d2.re
      let ti2 := ci + taur * d2.im
      let tr3 := taui * d3.re
      let ti3 := taui * d3.im
      let ch ← st ch (ix ido 3 (i - 1) 2 k) (tr2 + tr3)
      let ch ← st ch (ix ido 3 (ic - 1) 1 k) (tr2 - tr3)
      let ch ← st ch (ix ido 3 i 2 k) (ti3 + ti2)
      st ch (ix ido 3 ic 1 k) (ti3 - ti2))
    ch

/-- 1545-1590 `radf4` -/
noncomputable def radf4 (ido l1 : ℕ) (cc ch wa : List ℝ) : Out (List ℝ) :=
  radLoop true ido l1
    (fun k ch => do
      let c3 ← ld cc (ix ido l1 0 k 3)
      let c1 ← ld cc (ix ido l1 0 k 1)
      let tr1 := c3 + c1
      let ch ← st ch (ix ido 4 0 2 k) (c3 - c1)
      let c0 ← ld cc (ix ido l1 0 k 0)
      let c2 ← ld cc (ix ido l1 0 k 2)
      let tr2 := c0 + c2
      let ch ← st ch (ix ido 4 (ido - 1) 1 k) (c0 - c2)
      let ch ← st ch (ix ido 4 0 0 k) (tr2 + tr1)
      st ch (ix ido 4 (ido - 1) 3 k) (tr2 - tr1))
    (fun k ch => do
      let c1 ← ld cc (ix ido l1 (ido - 1) k 1)
      let c3 ← ld cc (ix ido l1 (ido - 1) k 3)
      let ti1 := -hsqt2 * (c1 + c3)
      let tr1 := hsqt2 * (c1 - c3)
      let c0 ← ld cc (ix ido l1 (ido - 1) k 0)
      let ch ← st ch (ix ido 4 (ido - 1) 0 k) (c0 + tr1)
      let ch ← st ch (ix ido 4 (ido - 1) 2 k) (c0 - tr1)
      let c2 ← ld cc (ix ido l1 (ido - 1) k 2)
      let ch ← st ch (ix ido 4 0 3 k) (ti1 + c2)
      st ch (ix ido 4 0 1 k) (ti1 - c2))
    (fun k i ch => do
      let ic := ido - i
      let c2 ← mulCC wa cc ido l1 i k 0
      let c3 ← mulCC wa cc ido l1 i k 1
      let c4 ← mulCC wa cc ido l1 i k 2
      let tr1 := c4.re + c2.re
      let tr4 := c4.re - c2.re
      let ti1 := c2.im + c4.im
      let ti4 := c2.im - c4.im
      let r0 ← ld cc (ix ido l1 (i - 1) k 0)
      let tr2 := r0 + c3.re
      let tr3 := r0 - c3.re
      let i0 ← ld cc (ix ido l1 i k 0)
      let ti2 := i0 + c3.im
      let ti3 := i0 - c3.im
      let ch ← st ch (ix ido 4 (i - 1) 0 k) (tr2 + tr1)
      let ch ← st ch (ix ido 4 (ic - 1) 3 k) (tr2 - tr1)
      let ch ← st ch (ix ido 4 i 0 k) (ti1 + ti2)
      let ch ← st ch (ix ido 4 ic 3 k) (ti1 - ti2)
      let ch ← st ch (ix ido 4 (i - 1) 2 k) (tr3 + ti4)
      let ch ← st ch (ix ido 4 (ic - 1) 1 k) (tr3 - ti4)
      let ch ← st ch (ix ido 4 i 2 k) (tr4 + ti3)
      st ch (ix ido 4 ic 1 k) (tr4 - ti3))
    ch

/-- 1592-1644 `radf5` -/
noncomputable def radf5 (ido l1 : ℕ) (cc ch wa : List ℝ) : Out (List ℝ) :=
  let tr11 := cR 5 1
  let ti11 := cI false 5 1
  let tr12 := cR 5 2
  let ti12 := cI false 5 2
  radLoop false ido l1
    (fun k ch => do
      let c0 ← ld cc (ix ido l1 0 k 0)
      let c1 ← ld cc (ix ido l1 0 k 1)
      let c2 ← ld cc (ix ido l1 0 k 2)
      let c3 ← ld cc (ix ido l1 0 k 3)
      let c4 ← ld cc (ix ido l1 0 k 4)
      let cr2 := c4 + c1
      let ci5 := c4 - c1
      let cr3 := c3 + c2
      let ci4 := c3 - c2
      let ch ← st ch (ix ido 5 0 0 k) (c0 + cr2 + cr3)
      let ch ← st ch (ix ido 5 (ido - 1) 1 k) (c0 + tr11 * cr2 + tr12 * cr3)
      let ch ← st ch (ix ido 5 0 2 k) (ti11 * ci5 + ti12 * ci4)
      let ch ← st ch (ix ido 5 (ido - 1) 3 k) (c0 + tr12 * cr2 + tr11 * cr3)
      st ch (ix ido 5 0 4 k) (ti12 * ci5 - ti11 * ci4))
    (fun _ ch => pure ch)
    (fun k i ch => do
      let ic := ido - i
      let d2 ← mulCC wa cc ido l1 i k 0
      let d3 ← mulCC wa cc ido l1 i k 1
      let d4 ← mulCC wa cc ido l1 i k 2
      let d5 ← mulCC wa cc ido l1 i k 3
      let r := rearrange d2 d5
      let d2 := r.1
      let d5 := r.2
      let r := rearrange d3 d4
      let d3 := r.1
      let d4 := r.2
      let cr ← ld cc (ix ido l1 (i - 1) k 0)
      let ci ← ld cc (ix ido l1 i k 0)
      let ch ← st ch (ix ido 5 (i - 1) 0 k) (cr + d2.re + d3.re)
      let ch ← st ch (ix ido 5 i 0 k) (ci + d2.im + d3.im)
      let tr2 := cr + tr11 * d2.re + tr12 * d3.re
      let ti2 := ci + tr11 * d2.im + tr12 * d3.im
      let tr3 := cr + tr12 * d2.re + tr11 * d3.re
      let ti3 := ci + tr12 * d2.im + tr11 * d3.im
      let tr5 := ti11 * d5.re + ti12 * d4.re
      let ti5 := ti11 * d5.im + ti12 * d4.im
      let tr4 := ti12 * d5.re - ti11 * d4.re
      let ti4 := ti12 * d5.im - ti11 * d4.im
      let ch ← st ch (ix ido 5 (i - 1) 2 k) (tr2 + tr5)
      let ch ← st ch (ix ido 5 (ic - 1) 1 k) (tr2 - tr5)
      let ch ← st ch (ix ido 5 i 2 k) (ti5 + ti2)
      let ch ← st ch (ix ido 5 ic 1 k) (ti5 - ti2)
      let ch ← st ch (ix ido 5 (i - 1) 4 k) (tr3 + tr4)
      let ch ← st ch (ix ido 5 (ic - 1) 3 k) (tr3 - tr4)
      let ch ← st ch (ix ido 5 i 4 k) (ti4 + ti3)
      st ch (ix ido 5 ic 3 k) (ti4 - ti3))
    ch

/-! ### the generic radix -/

/-- The loop variables `j`, `jc`, `iang` of 1708-1749, 2027-2068 and the array they add to. -/
structure RState where
  j : ℕ
  jc : ℕ
  iang : ℕ
  dst : List ℝ

/-- 1703-1707, 2020-2024: the first three terms of columns `l` and `lc`, from `src` to `dst` -/
def radgStart (ip idl1 l : ℕ) (cs src dst : List ℝ) : Out (List ℝ) :=
  let lc := ip - l
  forN idl1 (fun ik dst => do
    let h0 ← ld src (ik + idl1 * 0)
    let c1 ← ld cs (2 * l)
    let h1 ← ld src (ik + idl1 * 1)
    let c2 ← ld cs (4 * l)
    let h2 ← ld src (ik + idl1 * 2)
    let dst ← st dst (ik + idl1 * l) (h0 + c1 * h1 + c2 * h2)
    let s1 ← ld cs (2 * l + 1)
    let g1 ← ld src (ik + idl1 * (ip - 1))
    let s2 ← ld cs (4 * l + 1)
    let g2 ← ld src (ik + idl1 * (ip - 2))
    st dst (ik + idl1 * lc) (s1 * g1 + s2 * g2)) dst

/-- 1720-1726, 2037-2043: four more terms -/
def radgFour (ip idl1 l j jc : ℕ) (a1 a2 a3 a4 : ℂ) (src dst : List ℝ) : Out (List ℝ) :=
  let lc := ip - l
  forN idl1 (fun ik dst => do
    let x ← ld dst (ik + idl1 * l)
    let h1 ← ld src (ik + idl1 * j)
    let h2 ← ld src (ik + idl1 * (j + 1))
    let h3 ← ld src (ik + idl1 * (j + 2))
    let h4 ← ld src (ik + idl1 * (j + 3))
    let dst ← st dst (ik + idl1 * l) (x + (a1.re * h1 + a2.re * h2 + a3.re * h3 + a4.re * h4))
    let y ← ld dst (ik + idl1 * lc)
    let g1 ← ld src (ik + idl1 * jc)
    let g2 ← ld src (ik + idl1 * (jc - 1))
    let g3 ← ld src (ik + idl1 * (jc - 2))
    let g4 ← ld src (ik + idl1 * (jc - 3))
    st dst (ik + idl1 * lc) (y + (a1.im * g1 + a2.im * g2 + a3.im * g3 + a4.im * g4))) dst

/-- 1734-1738, 2051-2055: two more terms -/
def radgTwo (ip idl1 l j jc : ℕ) (a1 a2 : ℂ) (src dst : List ℝ) : Out (List ℝ) :=
  let lc := ip - l
  forN idl1 (fun ik dst => do
    let x ← ld dst (ik + idl1 * l)
    let h1 ← ld src (ik + idl1 * j)
    let h2 ← ld src (ik + idl1 * (j + 1))
    let dst ← st dst (ik + idl1 * l) (x + (a1.re * h1 + a2.re * h2))
    let y ← ld dst (ik + idl1 * lc)
    let g1 ← ld src (ik + idl1 * jc)
    let g2 ← ld src (ik + idl1 * (jc - 1))
    st dst (ik + idl1 * lc) (y + (a1.im * g1 + a2.im * g2))) dst

/-- 1744-1748, 2061-2065: one more term -/
def radgOne (ip idl1 l j jc : ℕ) (a : ℂ) (src dst : List ℝ) : Out (List ℝ) :=
  let lc := ip - l
  forN idl1 (fun ik dst => do
    let x ← ld dst (ik + idl1 * l)
    let h ← ld src (ik + idl1 * j)
    let dst ← st dst (ik + idl1 * l) (x + a.re * h)
    let y ← ld dst (ik + idl1 * lc)
    let g ← ld src (ik + idl1 * jc)
    st dst (ik + idl1 * lc) (y + a.im * g)) dst

/-- 1712-1719 `iang+=l; if (iang>=ip) iang-=ip; ar=csarr[2*iang], ai=csarr[2*iang+1]`; the backward pass
(2029-2036) compares with `>` instead: `strict`. -/
def radgAngle (strict : Bool) (ip l iang : ℕ) (cs : List ℝ) : Out (ℕ × ℂ) := do
  let iang := iang + l
  let iang := if (if strict then iang > ip else iang ≥ ip) then iang - ip else iang
  let ar ← ld cs (2 * iang)
  let ai ← ld cs (2 * iang + 1)
  pure (iang, ⟨ar, ai⟩)

/-- 1701-1750, 2018-2067: the columns `l` and `ip - l` of `dst` -/
def radgPair (strict : Bool) (ip idl1 l : ℕ) (cs src dst : List ℝ) : Out (List ℝ) := do
  let ipph := (ip + 1) / 2
  let dst ← radgStart ip idl1 l cs src dst
  let s : RState := ⟨3, ip - 3, 2 * l, dst⟩
  let s ← whileN (ip + 1) (fun s : RState => decide (s.j < ipph - 3)) (fun s => do
    let a1 ← radgAngle strict ip l s.iang cs
    let a2 ← radgAngle strict ip l a1.1 cs
    let a3 ← radgAngle strict ip l a2.1 cs
    let a4 ← radgAngle strict ip l a3.1 cs
    let dst ← radgFour ip idl1 l s.j s.jc a1.2 a2.2 a3.2 a4.2 src s.dst
    pure (⟨s.j + 4, s.jc - 4, a4.1, dst⟩ : RState)) s
  let s ← whileN (ip + 1) (fun s : RState => decide (s.j < ipph - 1)) (fun s => do
    let a1 ← radgAngle strict ip l s.iang cs
    let a2 ← radgAngle strict ip l a1.1 cs
    let dst ← radgTwo ip idl1 l s.j s.jc a1.2 a2.2 src s.dst
    pure (⟨s.j + 2, s.jc - 2, a2.1, dst⟩ : RState)) s
  let s ← whileN (ip + 1) (fun s : RState => decide (s.j < ipph)) (fun s => do
    let a ← radgAngle strict ip l s.iang cs
    let dst ← radgOne ip idl1 l s.j s.jc a.2 src s.dst
    pure (⟨s.j + 1, s.jc - 1, a.1, dst⟩ : RState)) s
  pure s.dst

/-- 1679-1686, one pair of columns at `i`, `i + 1` in place, `i` odd -/
def radfgTw (ido ip l1 j k i : ℕ) (wa cc : List ℝ) : Out (List ℝ) := do
  let jc := ip - j
  let idij := (j - 1) * (ido - 1) + (i - 1)
  let idij2 := (jc - 1) * (ido - 1) + (i - 1)
  let t1 ← ld cc (ix ido l1 i k j)
  let t2 ← ld cc (ix ido l1 (i + 1) k j)
  let t3 ← ld cc (ix ido l1 i k jc)
  let t4 ← ld cc (ix ido l1 (i + 1) k jc)
  let w1 ← ld wa idij
  let w2 ← ld wa (idij + 1)
  let w3 ← ld wa idij2
  let w4 ← ld wa (idij2 + 1)
  let x1 := w1 * t1 + w2 * t2
  let x2 := w1 * t2 - w2 * t1
  let x3 := w3 * t3 + w4 * t4
  let x4 := w3 * t4 - w4 * t3
  let cc ← st cc (ix ido l1 i k j) (x3 + x1)
  let cc ← st cc (ix ido l1 (i + 1) k jc) (x3 - x1)
  let cc ← st cc (ix ido l1 (i + 1) k j) (x2 + x4)
  st cc (ix ido l1 i k jc) (x2 - x4)

/-- 1667-1696: twiddles, sums and differences, in place.  `if (ido>1)` is implied: the loop 1677 is empty
otherwise. -/
def radfgFold (ido ip l1 : ℕ) (wa cc : List ℝ) : Out (List ℝ) := do
  let ipph := (ip + 1) / 2
  let cc ← forN (ipph - 1) (fun j0 cc => forN l1 (fun k cc => forN ((ido - 1) / 2) (fun i0 cc =>
    radfgTw ido ip l1 (j0 + 1) k (2 * i0 + 1) wa cc) cc) cc) cc
  forN (ipph - 1) (fun j0 cc => forN l1 (fun k cc => do
    let j := j0 + 1
    let jc := ip - j
    let a ← ld cc (ix ido l1 0 k jc)
    let b ← ld cc (ix ido l1 0 k j)
    let cc ← st cc (ix ido l1 0 k jc) (a - b)
    st cc (ix ido l1 0 k j) (a + b)) cc) cc

/-- 1751-1755: column 0 -/
def radfgZero (ip idl1 : ℕ) (src dst : List ℝ) : Out (List ℝ) := do
  let dst ← forN idl1 (fun ik dst => do
    let x ← ld src (ik + idl1 * 0)
    st dst (ik + idl1 * 0) x) dst
  forN ((ip + 1) / 2 - 1) (fun j0 dst => forN idl1 (fun ik dst => do
    let y ← ld dst (ik + idl1 * 0)
    let x ← ld src (ik + idl1 * (j0 + 1))
    st dst (ik + idl1 * 0) (y + x)) dst) dst

/-- 1760-1787: the outputs in their final places, from `ch` to `cc` -/
def radfgOut (ido ip l1 : ℕ) (ch cc : List ℝ) : Out (List ℝ) := do
  let ipph := (ip + 1) / 2
  let cc ← forN l1 (fun k cc => forN ido (fun i cc => do
    let x ← ld ch (ix ido l1 i k 0)
    st cc (ix ido ip i 0 k) x) cc) cc
  let cc ← forN (ipph - 1) (fun j0 cc => forN l1 (fun k cc => do
    let j := j0 + 1
    let jc := ip - j
    let j2 := 2 * j - 1
    let x ← ld ch (ix ido l1 0 k j)
    let cc ← st cc (ix ido ip (ido - 1) j2 k) x
    let y ← ld ch (ix ido l1 0 k jc)
    st cc (ix ido ip 0 (j2 + 1) k) y) cc) cc
  if ido = 1 then pure cc
  else forN (ipph - 1) (fun j0 cc => forN l1 (fun k cc => forN ((ido - 1) / 2) (fun i0 cc => do
    let j := j0 + 1
    let jc := ip - j
    let j2 := 2 * j - 1
    let i := 2 * i0 + 1
    let ic := ido - i - 2
    let x ← ld ch (ix ido l1 i k j)
    let y ← ld ch (ix ido l1 i k jc)
    let cc ← st cc (ix ido ip i (j2 + 1) k) (x + y)
    let cc ← st cc (ix ido ip ic j2 k) (x - y)
    let x ← ld ch (ix ido l1 (i + 1) k j)
    let y ← ld ch (ix ido l1 (i + 1) k jc)
    let cc ← st cc (ix ido ip (i + 1) (j2 + 1) k) (x + y)
    st cc (ix ido ip (ic + 1) j2 k) (y - x)) cc) cc) cc

/-- 1648-1788 `radfg`: works in both buffers and leaves the result in `cc`. -/
def radfg (ido ip l1 : ℕ) (cc ch wa cs : List ℝ) : Out (List ℝ × List ℝ) := do
  let cc ← radfgFold ido ip l1 wa cc
  let ch ← forN ((ip + 1) / 2 - 1) (fun l0 ch => radgPair false ip (ido * l1) (l0 + 1) cs cc ch) ch
  let ch ← radfgZero ip (ido * l1) cc ch
  let cc ← radfgOut ido ip l1 ch cc
  pure (cc, ch)

/-! ### backward -/

/-- 1790-1818 `radb2` -/
def radb2 (ido l1 : ℕ) (cc ch wa : List ℝ) : Out (List ℝ) :=
  radLoop true ido l1
    (fun k ch => do
      let a ← ld cc (ix ido 2 0 0 k)
      let b ← ld cc (ix ido 2 (ido - 1) 1 k)
      let ch ← st ch (ix ido l1 0 k 0) (a + b)
      st ch (ix ido l1 0 k 1) (a - b))
    (fun k ch => do
      let a ← ld cc (ix ido 2 (ido - 1) 0 k)
      let ch ← st ch (ix ido l1 (ido - 1) k 0) (2 * a)
      let b ← ld cc (ix ido 2 0 1 k)
      st ch (ix ido l1 (ido - 1) k 1) (-2 * b))
    (fun k i ch => do
      let ic := ido - i
      let a ← ld cc (ix ido 2 (i - 1) 0 k)
      let b ← ld cc (ix ido 2 (ic - 1) 1 k)
      let ch ← st ch (ix ido l1 (i - 1) k 0) (a + b)
      let tr2 := a - b
      let c ← ld cc (ix ido 2 i 0 k)
      let d ← ld cc (ix ido 2 ic 1 k)
      let ti2 := c + d
      let ch ← st ch (ix ido l1 i k 0) (c - d)
      mulCH wa ido l1 i k 0 ⟨tr2, ti2⟩ ch)
    ch

/-- 1820-1858 `radb3` -/
noncomputable def radb3 (ido l1 : ℕ) (cc ch wa : List ℝ) : Out (List ℝ) :=
  let taur := cR 3 1
  let taui := cI false 3 1
  radLoop false ido l1
    (fun k ch => do
      let b ← ld cc (ix ido 3 (ido - 1) 1 k)
      let tr2 := 2 * b
      let a ← ld cc (ix ido 3 0 0 k)
      let cr2 := a + taur * tr2
      let ch ← st ch (ix ido l1 0 k 0) (a + tr2)
      let c ← ld cc (ix ido 3 0 2 k)
      let ci3 := 2 * taui * c
      let ch ← st ch (ix ido l1 0 k 2) (cr2 + ci3)
      st ch (ix ido l1 0 k 1) (cr2 - ci3))
    (fun _ ch => pure ch)
    (fun k i ch => do
      let ic := ido - i
      let p2 ← ld cc (ix ido 3 (i - 1) 2 k)
      let p1 ← ld cc (ix ido 3 (ic - 1) 1 k)
      let q2 ← ld cc (ix ido 3 i 2 k)
      let q1 ← ld cc (ix ido 3 ic 1 k)
      let tr2 := p2 + p1
      let ti2 := q2 - q1
      let p0 ← ld cc (ix ido 3 (i - 1) 0 k)
      let q0 ← ld cc (ix ido 3 i 0 k)
      let cr2 := p0 + taur * tr2
      let ci2 := q0 + taur * ti2
      let ch ← st ch (ix ido l1 (i - 1) k 0) (p0 + tr2)
      let ch ← st ch (ix ido l1 i k 0) (q0 + ti2)
      let cr3 := taui * (p2 - p1)
      let ci3 := taui * (q2 + q1)
      let dr3 := cr2 + ci3
      let dr2 := cr2 - ci3
      let di2 := ci2 + cr3
      let di3 := ci2 - cr3
      let ch ← mulCH wa ido l1 i k 0 ⟨dr2, di2⟩ ch
      mulCH wa ido l1 i k 1 ⟨dr3, di3⟩ ch)
    ch

/-- 1860-1910 `radb4`; `sqrt2` is `2 * hsqt2`. -/
noncomputable def radb4 (ido l1 : ℕ) (cc ch wa : List ℝ) : Out (List ℝ) :=
  let sqrt2 := Real.sqrt 2
  radLoop true ido l1
    (fun k ch => do
      let a ← ld cc (ix ido 4 0 0 k)
      let b ← ld cc (ix ido 4 (ido - 1) 3 k)
      let tr2 := a + b
      let tr1 := a - b
      let c ← ld cc (ix ido 4 (ido - 1) 1 k)
      let tr3 := 2 * c
      let d ← ld cc (ix ido 4 0 2 k)
      let tr4 := 2 * d
      let ch ← st ch (ix ido l1 0 k 0) (tr2 + tr3)
      let ch ← st ch (ix ido l1 0 k 2) (tr2 - tr3)
      let ch ← st ch (ix ido l1 0 k 3) (tr1 + tr4)
      st ch (ix ido l1 0 k 1) (tr1 - tr4))
    (fun k ch => do
      let a ← ld cc (ix ido 4 0 3 k)
      let b ← ld cc (ix ido 4 0 1 k)
      let ti1 := a + b
      let ti2 := a - b
      let c ← ld cc (ix ido 4 (ido - 1) 0 k)
      let d ← ld cc (ix ido 4 (ido - 1) 2 k)
      let tr2 := c + d
      let tr1 := c - d
      let ch ← st ch (ix ido l1 (ido - 1) k 0) (tr2 + tr2)
      let ch ← st ch (ix ido l1 (ido - 1) k 1) (sqrt2 * (tr1 - ti1))
      let ch ← st ch (ix ido l1 (ido - 1) k 2) (ti2 + ti2)
      st ch (ix ido l1 (ido - 1) k 3) (-sqrt2 * (tr1 + ti1)))
    (fun k i ch => do
      let ic := ido - i
      let p0 ← ld cc (ix ido 4 (i - 1) 0 k)
      let p3 ← ld cc (ix ido 4 (ic - 1) 3 k)
      let tr2 := p0 + p3
      let tr1 := p0 - p3
      let q0 ← ld cc (ix ido 4 i 0 k)
      let q3 ← ld cc (ix ido 4 ic 3 k)
      let ti1 := q0 + q3
      let ti2 := q0 - q3
      let q2 ← ld cc (ix ido 4 i 2 k)
      let q1 ← ld cc (ix ido 4 ic 1 k)
      let tr4 := q2 + q1
      let ti3 := q2 - q1
      let p2 ← ld cc (ix ido 4 (i - 1) 2 k)
      let p1 ← ld cc (ix ido 4 (ic - 1) 1 k)
      let tr3 := p2 + p1
      let ti4 := p2 - p1
      let ch ← st ch (ix ido l1 (i - 1) k 0) (tr2 + tr3)
      let cr3 := tr2 - tr3
      let ch ← st ch (ix ido l1 i k 0) (ti2 + ti3)
      let ci3 := ti2 - ti3
      let cr4 := tr1 + tr4
      let cr2 := tr1 - tr4
      let ci2 := ti1 + ti4
      let ci4 := ti1 - ti4
      let ch ← mulCH wa ido l1 i k 0 ⟨cr2, ci2⟩ ch
      let ch ← mulCH wa ido l1 i k 1 ⟨cr3, ci3⟩ ch
      mulCH wa ido l1 i k 2 ⟨cr4, ci4⟩ ch)
    ch

/-- 1912-1969 `radb5` -/
noncomputable def radb5 (ido l1 : ℕ) (cc ch wa : List ℝ) : Out (List ℝ) :=
  let tr11 := cR 5 1
  let ti11 := cI false 5 1
  let tr12 := cR 5 2
  let ti12 := cI false 5 2
  radLoop false ido l1
    (fun k ch => do
      let c2 ← ld cc (ix ido 5 0 2 k)
      let ti5 := c2 + c2
      let c4 ← ld cc (ix ido 5 0 4 k)
      let ti4 := c4 + c4
      let c1 ← ld cc (ix ido 5 (ido - 1) 1 k)
      let tr2 := c1 + c1
      let c3 ← ld cc (ix ido 5 (ido - 1) 3 k)
      let tr3 := c3 + c3
      let c0 ← ld cc (ix ido 5 0 0 k)
      let ch ← st ch (ix ido l1 0 k 0) (c0 + tr2 + tr3)
      let cr2 := c0 + tr11 * tr2 + tr12 * tr3
      let cr3 := c0 + tr12 * tr2 + tr11 * tr3
      let ci := mulpm ti5 ti4 ti11 ti12
      let ci5 := ci.re
      let ci4 := ci.im
      let ch ← st ch (ix ido l1 0 k 4) (cr2 + ci5)
      let ch ← st ch (ix ido l1 0 k 1) (cr2 - ci5)
      let ch ← st ch (ix ido l1 0 k 3) (cr3 + ci4)
      st ch (ix ido l1 0 k 2) (cr3 - ci4))
    (fun _ ch => pure ch)
    (fun k i ch => do
      let ic := ido - i
      let p2 ← ld cc (ix ido 5 (i - 1) 2 k)
      let p1 ← ld cc (ix ido 5 (ic - 1) 1 k)
      let tr2 := p2 + p1
      let tr5 := p2 - p1
      let q2 ← ld cc (ix ido 5 i 2 k)
      let q1 ← ld cc (ix ido 5 ic 1 k)
      let ti5 := q2 + q1
      let ti2 := q2 - q1
      let p4 ← ld cc (ix ido 5 (i - 1) 4 k)
      let p3 ← ld cc (ix ido 5 (ic - 1) 3 k)
      let tr3 := p4 + p3
      let tr4 := p4 - p3
      let q4 ← ld cc (ix ido 5 i 4 k)
      let q3 ← ld cc (ix ido 5 ic 3 k)
      let ti4 := q4 + q3
      let ti3 := q4 - q3
      let p0 ← ld cc (ix ido 5 (i - 1) 0 k)
      let q0 ← ld cc (ix ido 5 i 0 k)
      let ch ← st ch (ix ido l1 (i - 1) k 0) (p0 + tr2 + tr3)
      let ch ← st ch (ix ido l1 i k 0) (q0 + ti2 + ti3)
      let cr2 := p0 + tr11 * tr2 + tr12 * tr3
      let ci2 := q0 + tr11 * ti2 + tr12 * ti3
      let cr3 := p0 + tr12 * tr2 + tr11 * tr3
      let ci3 := q0 + tr12 * ti2 + tr11 * ti3
      let cr := mulpm tr5 tr4 ti11 ti12
      let cr5 := cr.re
      let cr4 := cr.im
      let ci := mulpm ti5 ti4 ti11 ti12
      let ci5 := ci.re
      let ci4 := ci.im
      let dr4 := cr3 + ci4
      let dr3 := cr3 - ci4
      let di3 := ci3 + cr4
      let di4 := ci3 - cr4
      let dr5 := cr2 + ci5
      let dr2 := cr2 - ci5
      let di2 := ci2 + cr5
      let di5 := ci2 - cr5
      let ch ← mulCH wa ido l1 i k 0 ⟨dr2, di2⟩ ch
      let ch ← mulCH wa ido l1 i k 1 ⟨dr3, di3⟩ ch
      let ch ← mulCH wa ido l1 i k 2 ⟨dr4, di4⟩ ch
      mulCH wa ido l1 i k 3 ⟨dr5, di5⟩ ch)
    ch

/-- 1990-2017: sums and differences of mirrored inputs, from `cc` to `ch` -/
def radbgFold (ido ip l1 : ℕ) (cc ch : List ℝ) : Out (List ℝ) := do
  let ipph := (ip + 1) / 2
  let ch ← forN l1 (fun k ch => forN ido (fun i ch => do
    let x ← ld cc (ix ido ip i 0 k)
    st ch (ix ido l1 i k 0) x) ch) ch
  let ch ← forN (ipph - 1) (fun j0 ch => forN l1 (fun k ch => do
    let j := j0 + 1
    let jc := ip - j
    let j2 := 2 * j - 1
    let x ← ld cc (ix ido ip (ido - 1) j2 k)
    let ch ← st ch (ix ido l1 0 k j) (2 * x)
    let y ← ld cc (ix ido ip 0 (j2 + 1) k)
    st ch (ix ido l1 0 k jc) (2 * y)) ch) ch
  if ido = 1 then pure ch
  else forN (ipph - 1) (fun j0 ch => forN l1 (fun k ch => forN ((ido - 1) / 2) (fun i0 ch => do
    let j := j0 + 1
    let jc := ip - j
    let j2 := 2 * j - 1
    let i := 2 * i0 + 1
    let ic := ido - i - 2
    let x ← ld cc (ix ido ip i (j2 + 1) k)
    let y ← ld cc (ix ido ip ic j2 k)
    let ch ← st ch (ix ido l1 i k j) (x + y)
    let ch ← st ch (ix ido l1 i k jc) (x - y)
    let x ← ld cc (ix ido ip (i + 1) (j2 + 1) k)
    let y ← ld cc (ix ido ip (ic + 1) j2 k)
    let ch ← st ch (ix ido l1 (i + 1) k j) (x - y)
    st ch (ix ido l1 (i + 1) k jc) (x + y)) ch) ch) ch

/-- 2068-2070: output 0, in place -/
def radbgZero (ip idl1 : ℕ) (ch : List ℝ) : Out (List ℝ) :=
  forN ((ip + 1) / 2 - 1) (fun j0 ch => forN idl1 (fun ik ch => do
    let y ← ld ch (ik + idl1 * 0)
    let x ← ld ch (ik + idl1 * (j0 + 1))
    st ch (ik + idl1 * 0) (y + x)) ch) ch

/-- 2071-2085: the other outputs before the twiddle factors, from `cc` to `ch`; the loops 2077-2085 are not
run if `ido` is one. -/
def radbgOut (ido ip l1 : ℕ) (cc ch : List ℝ) : Out (List ℝ) := do
  let ipph := (ip + 1) / 2
  let ch ← forN (ipph - 1) (fun j0 ch => forN l1 (fun k ch => do
    let j := j0 + 1
    let jc := ip - j
    let x ← ld cc (ix ido l1 0 k j)
    let y ← ld cc (ix ido l1 0 k jc)
    let ch ← st ch (ix ido l1 0 k jc) (x + y)
    st ch (ix ido l1 0 k j) (x - y)) ch) ch
  if ido = 1 then pure ch
  else forN (ipph - 1) (fun j0 ch => forN l1 (fun k ch => forN ((ido - 1) / 2) (fun i0 ch => do
    let j := j0 + 1
    let jc := ip - j
    let i := 2 * i0 + 1
    let x ← ld cc (ix ido l1 i k j)
    let y ← ld cc (ix ido l1 (i + 1) k jc)
    let ch ← st ch (ix ido l1 i k j) (x - y)
    let ch ← st ch (ix ido l1 i k jc) (x + y)
    let x ← ld cc (ix ido l1 (i + 1) k j)
    let y ← ld cc (ix ido l1 i k jc)
    let ch ← st ch (ix ido l1 (i + 1) k j) (x + y)
    st ch (ix ido l1 (i + 1) k jc) (x - y)) ch) ch) ch

/-- 2089-2103: the twiddle factors, in place; not reached if `ido` is one (2075), when the loop over `i` is
empty anyway. -/
def radbgTw (ido ip l1 : ℕ) (wa ch : List ℝ) : Out (List ℝ) :=
  forN (ip - 1) (fun j0 ch => forN l1 (fun k ch => forN ((ido - 1) / 2) (fun i0 ch => do
    let j := j0 + 1
    let i := 2 * i0 + 1
    let idij := (j - 1) * (ido - 1) + 2 * i0
    let t1 ← ld ch (ix ido l1 i k j)
    let t2 ← ld ch (ix ido l1 (i + 1) k j)
    let w1 ← ld wa idij
    let w2 ← ld wa (idij + 1)
    let ch ← st ch (ix ido l1 i k j) (w1 * t1 - w2 * t2)
    st ch (ix ido l1 (i + 1) k j) (w1 * t2 + w2 * t1)) ch) ch) ch

/-- 1971-2104 `radbg`: works in both buffers and leaves the result in `ch`. -/
def radbg (ido ip l1 : ℕ) (cc ch wa cs : List ℝ) : Out (List ℝ × List ℝ) := do
  let ch ← radbgFold ido ip l1 cc ch
  let cc ← forN ((ip + 1) / 2 - 1) (fun l0 cc => radgPair true ip (ido * l1) (l0 + 1) cs ch cc) cc
  let ch ← radbgZero ip (ido * l1) ch
  let ch ← radbgOut ido ip l1 cc ch
  let ch ← radbgTw ido ip l1 wa ch
  pure (cc, ch)

/-! ### the plan -/

/-- 1451-1455 `fctdata`; every factor has its own lists here (in the code they point into `mem`). -/
structure RFactor where
  fct : ℕ
  tw : List ℝ
  tws : List ℝ

/-- 2172-2191 `rfftp::factorize` -/
def rfactorize (length : ℕ) : Out (List ℕ) := do
  let s ← whileN (length + 1) (fun s : List ℕ × ℕ => decide (s.2 % 4 = 0))
    (fun s => .ok (s.1 ++ [4], s.2 / 4)) ([], length)
  let s := if s.2 % 2 = 0 then
      let f := s.1 ++ [2]
      -- std::swap(fact[0].fct, fact.back().fct)
      ((f.set 0 (f.getLastD 0)).set (f.length - 1) (f.headD 0), s.2 / 2)
    else s
  let s ← whileN (length + 1) (fun s : (List ℕ × ℕ) × ℕ => decide (s.2 * s.2 ≤ s.1.2))
    (fun s => do
      let t ← whileN (length + 1) (fun t : List ℕ × ℕ => decide (t.2 % s.2 = 0))
        (fun t => .ok (t.1 ++ [s.2], t.2 / s.2)) s.1
      pure (t, s.2 + 2)) (s, 3)
  let s := s.1
  pure (if s.2 > 1 then s.1 ++ [s.2] else s.1)

/-- 2216-2222 the twiddle factors of one factor; entries the loops do not reach stay uninitialised. -/
def rtwiddleTw (t : SinCos) (l1 ip ido : ℕ) (junk : ℕ → ℝ) : Out (List ℝ) :=
  forN (ip - 1) (fun j0 tw => forN ((ido - 1) / 2) (fun i0 tw => do
    let j := j0 + 1
    let i := i0 + 1
    let v ← t.get (j * l1 * i)
    let tw ← st tw ((j - 1) * (ido - 1) + 2 * i - 2) v.re
    st tw ((j - 1) * (ido - 1) + 2 * i - 1) v.im) tw) (fresh junk ((ip - 1) * (ido - 1)))

/-- 2226-2235 the table for the generic radix; the loop runs while `i <= ic`, that is `i / 2 <= ip / 2`. -/
def rtwiddleTws (t : SinCos) (length ip : ℕ) (junk : ℕ → ℝ) : Out (List ℝ) := do
  let tws ← st (fresh junk (2 * ip)) 0 1
  let tws ← st tws 1 0
  forN (ip / 2) (fun i0 tws => do
    let i := 2 * (i0 + 1)
    let ic := 2 * ip - i
    let v ← t.get (i / 2 * (length / ip))
    let tws ← st tws i v.re
    let tws ← st tws (i + 1) v.im
    let tws ← st tws ic v.re
    st tws (ic + 1) (-v.im)) tws

/-- 2206-2239 `comp_twiddle`; the last factor gets no twiddle factors (2214). -/
def rtwiddles (t : SinCos) (length : ℕ) (junk : ℕ → ℝ) : ℕ → List ℕ → Out (List RFactor)
  | _, [] => pure []
  | l1, ip :: fs => do
    let ido := length / (l1 * ip)
    let tw ← (if fs.length > 0 then rtwiddleTw t l1 ip ido junk else pure [])
    let tws ← (if ip > 5 then rtwiddleTws t length ip junk else pure [])
    let rest ← rtwiddles t length junk (l1 * ip) fs
    pure (⟨ip, tw, tws⟩ :: rest)

/-- 1457-1459 the members of `rfftp` -/
structure RPlan where
  length : ℕ
  fact : List RFactor

/-- 2242-2250 the constructor of `rfftp` -/
noncomputable def rfftp (length : ℕ) (junk : ℕ → ℝ) : Out RPlan := do
  if length = 0 then .throws
  else if length = 1 then pure ⟨1, []⟩
  else do
    let fs ← rfactorize length
    let t ← sincos length
    let fact ← rtwiddles t length junk 1 fs
    pure ⟨length, fact⟩

/-- 2133-2147, one factor: the contents of the two buffers `p1`, `p2` after the exchange of the pointers. -/
noncomputable def radf (ido l1 : ℕ) (f : RFactor) (p1 p2 : List ℝ) : Out (List ℝ × List ℝ) := do
  let ip := f.fct
  if ip = 4 then do
    let p2 ← radf4 ido l1 p1 p2 f.tw
    pure (p2, p1)
  else if ip = 2 then do
    let p2 ← radf2 ido l1 p1 p2 f.tw
    pure (p2, p1)
  else if ip = 3 then do
    let p2 ← radf3 ido l1 p1 p2 f.tw
    pure (p2, p1)
  else if ip = 5 then do
    let p2 ← radf5 ido l1 p1 p2 f.tw
    pure (p2, p1)
  else radfg ido ip l1 p1 p2 f.tw f.tws

/-- 2131-2148: the loop over the factors from the last to the first; the list of factors is given in that
order. -/
noncomputable def r2hcLoop (n : ℕ) : ℕ → List RFactor → List ℝ → List ℝ → Out (List ℝ)
  | _, [], p1, _ => pure p1
  | l1, f :: fs, p1, p2 => do
    let ido := n / l1
    let l1 := l1 / f.fct
    let r ← radf ido l1 f p1 p2
    r2hcLoop n l1 fs r.1 r.2

/-- 2152-2164, one factor -/
noncomputable def radb (ido l1 : ℕ) (f : RFactor) (p1 p2 : List ℝ) : Out (List ℝ × List ℝ) := do
  let ip := f.fct
  if ip = 4 then do
    let p2 ← radb4 ido l1 p1 p2 f.tw
    pure (p2, p1)
  else if ip = 2 then do
    let p2 ← radb2 ido l1 p1 p2 f.tw
    pure (p2, p1)
  else if ip = 3 then do
    let p2 ← radb3 ido l1 p1 p2 f.tw
    pure (p2, p1)
  else if ip = 5 then do
    let p2 ← radb5 ido l1 p1 p2 f.tw
    pure (p2, p1)
  else do
    let r ← radbg ido ip l1 p1 p2 f.tw f.tws
    pure (r.2, r.1)

/-- 2150-2166: the loop over the factors of the backward transform -/
noncomputable def hc2rLoop (n : ℕ) : ℕ → List RFactor → List ℝ → List ℝ → Out (List ℝ)
  | _, [], p1, _ => pure p1
  | l1, f :: fs, p1, p2 => do
    let ido := n / (f.fct * l1)
    let r ← radb ido l1 f p1 p2
    hc2rLoop n (l1 * f.fct) fs r.1 r.2

open Classical in
/-- 2123-2169 `rfftp::exec`, with 2106-2120 `copy_and_norm`.  `scratch` is the uninitialised buffer `ch`. -/
noncomputable def RPlan.exec (p : RPlan) (c scratch : List ℝ) (fct : ℝ) (r2hc : Bool) : Out (List ℝ) :=
  if p.length = 1 then do
    let x ← ld c 0
    st c 0 (x * fct)
  else do
    let p1 ← (if r2hc then r2hcLoop p.length p.length p.fact.reverse c scratch else hc2rLoop p.length 1 p.fact c scratch)
    if fct ≠ 1 then pure (p1.map (fct * ·)) else pure p1

/-! ### Bluestein for real data -/

/-- element `n` of an array of complex numbers seen as an array of reals -/
def flatRe (c : List ℂ) (n : ℕ) : Out ℝ := do
  let z ← ld c (n / 2)
  pure (if n % 2 = 0 then z.re else z.im)

/-- 2331-2340 `fftblue::exec_r`, forward; the `memcpy` copies the numbers that start at `tmp[1].r` -/
noncomputable def Blue.execRF (p : Blue) (c : List ℝ) (fct : ℝ) (junk : ℕ → ℂ) : Out (List ℝ) := do
  let c0 ← ld c 0
  let zero := 0 * c0
  let tmp ← forN p.n (fun m tmp => do
    let x ← ld c m
    st tmp m ⟨x, zero⟩) (fresh junk p.n)
  let tmp ← p.exec tmp fct true junk
  let t0 ← ld tmp 0
  let c ← st c 0 t0.re
  forN (p.n - 1) (fun i c => do
    let x ← flatRe tmp (2 + i)
    st c (1 + i) x) c

/-- 2331, 2341-2352 `fftblue::exec_r`, backward; the `memcpy` 2344 stores to the numbers from `tmp[1].r` on -/
noncomputable def Blue.execRB (p : Blue) (c : List ℝ) (fct : ℝ) (junk : ℕ → ℂ) : Out (List ℝ) := do
  let c0 ← ld c 0
  let tmp ← st (fresh junk p.n) 0 ⟨c0, c0 * 0⟩
  let tmp ← forN (p.n - 1) (fun i tmp => do
    let x ← ld c (1 + i)
    let z ← ld tmp ((2 + i) / 2)
    st tmp ((2 + i) / 2) (if (2 + i) % 2 = 0 then ⟨x, z.im⟩ else ⟨z.re, x⟩)) tmp
  let tmp ← (if p.n % 2 = 0 then do
      let z ← ld tmp (p.n / 2)
      st tmp (p.n / 2) ⟨z.re, 0 * c0⟩
    else pure tmp)
  let tmp ← forN ((p.n - 1) / 2) (fun m0 tmp => do
    let m := m0 + 1
    let z ← ld tmp m
    st tmp (p.n - m) ⟨z.re, -z.im⟩) tmp
  let tmp ← p.exec tmp fct false junk
  forN p.n (fun m c => do
    let z ← ld tmp m
    st c m z.re) c

/-! ### 2397-2428 `pocketfft_r` -/

/-- 2400-2401: which of the two plans exists -/
inductive RlPlan where
  | pack (p : RPlan)
  | blue (p : Blue)

open Classical in
/-- 2405-2422 the constructor of `pocketfft_r` -/
noncomputable def pocketfftR (length : ℕ) (junkR : ℕ → ℝ) (junk : ℕ → ℂ) : Out RlPlan := do
  if length = 0 then .throws
  else do
    let tmp ← if length < 50 then pure 0 else largestPrimeFactor length
    if tmp * tmp ≤ length then do
      let p ← rfftp length junkR
      pure (.pack p)
    else do
      let comp1 ← costGuess length
      let comp1 := 0.5 * comp1
      let good ← goodSizeCmplx (2 * length - 1)
      let comp2 ← costGuess good
      if 2 * comp2 * 1.5 < comp1 then do
        let p ← fftblue length junk
        pure (.blue p)
      else do
        let p ← rfftp length junkR
        pure (.pack p)

/-- 2424-2425 `pocketfft_r::exec` -/
noncomputable def RlPlan.exec (p : RlPlan) (c : List ℝ) (fct : ℝ) (fwd : Bool) (junkR : ℕ → ℝ) (junk : ℕ → ℂ) :
    Out (List ℝ) :=
  match p with
  | .pack q => q.exec c (fresh junkR c.length) fct fwd
  | .blue q => if fwd then q.execRF c fct junk else q.execRB c fct junk

/-- 3136-3190 `general_r2c`, after `get_plan` has returned `plan` -/
noncomputable def pr2cWith (plan : RlPlan) (fct : ℝ) (x : List ℝ) (out : List ℂ) (junkR : ℕ → ℝ) (junk : ℕ → ℂ) :
    Out (List ℂ) := do
  let tdata ← forN x.length (fun i buf => do
    let v ← ld x i
    st buf i v) (fresh junkR x.length)
  let tdata ← plan.exec tdata fct true junkR junk
  let t0 ← ld tdata 0
  let out ← st out 0 ⟨t0, 0⟩
  let out ← forN ((x.length - 1) / 2) (fun n out => do
    let ii := n + 1
    let i := 2 * ii - 1
    let re ← ld tdata i
    let im ← ld tdata (i + 1)
    st out ii ⟨re, im⟩) out
  let ii := (x.length - 1) / 2 + 1
  let i := 2 * ii - 1
  if i < x.length then do
    let re ← ld tdata i
    st out ii ⟨re, 0⟩
  else pure out

/-- 3331-3343 `r2c` and 3136-3190 `general_r2c`, forward, of a contiguous one-dimensional array: one
transform in temporary storage.  `out` is the previous content of the output array.  `i<len-1` is
`i+1<len`: the loop 3181 runs `(len - 1) / 2` times, with `i = 2 ii - 1`. -/
noncomputable def pr2c (fct : ℝ) (x : List ℝ) (out : List ℂ) (junkR : ℕ → ℝ) (junk : ℕ → ℂ) : Out (List ℂ) :=
  if x.length = 0 then pure out
  else do
    let plan ← pocketfftR x.length junkR junk
    pr2cWith plan fct x out junkR junk

/-- 3191-3261 `general_c2r`, after `get_plan` has returned `plan` -/
noncomputable def pc2rWith (plan : RlPlan) (fct : ℝ) (X : List ℂ) (out : List ℝ) (junkR : ℕ → ℝ) (junk : ℕ → ℂ) :
    Out (List ℝ) := do
  let len := out.length
  let x0 ← ld X 0
  let tdata ← st (fresh junkR len) 0 x0.re
  let tdata ← forN ((len - 1) / 2) (fun n tdata => do
    let ii := n + 1
    let i := 2 * ii - 1
    let z ← ld X ii
    let tdata ← st tdata i z.re
    st tdata (i + 1) z.im) tdata
  let ii := (len - 1) / 2 + 1
  let i := 2 * ii - 1
  let tdata ← (if i < len then do
      let z ← ld X ii
      st tdata i z.re
    else pure tdata)
  let tdata ← plan.exec tdata fct false junkR junk
  forN len (fun i out => do
    let v ← ld tdata i
    st out i v) out

/-- 3363-3375 `c2r` and 3191-3261 `general_c2r`, backward, likewise. -/
noncomputable def pc2r (fct : ℝ) (X : List ℂ) (out : List ℝ) (junkR : ℕ → ℝ) (junk : ℕ → ℂ) : Out (List ℝ) :=
  if out.length = 0 then pure out
  else do
    let plan ← pocketfftR out.length junkR junk
    pc2rWith plan fct X out junkR junk

end Verif.Pocket
