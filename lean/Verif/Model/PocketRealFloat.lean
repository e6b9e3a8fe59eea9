import Verif.Model.PocketFloat
import Verif.Model.PocketReal

/-!
# Model of the bundled real FFT over an arbitrary scalar type  (include/dspbb/PocketFFT/pocketfft_hdronly.h: `rfftp`)

The text of the radices 2, 3, 4, 5 in `Model/PocketReal.lean`, loads and stores included, over any type `F` with `+`,
`-`, `*` and negation and with the association of every expression of the C++ text.  The literals and the twiddle
factors are parameters; the theorems say how accurate they must be.  Contraction of `a*b+c` is not modelled here.
The generic radix (`radfg`, `radbg`: prime factors from 7 on) and Bluestein's algorithm for real data are not
modelled over floating point: a transform that would need them is `.ub` here, so nothing can be proved about it.
-/

namespace Verif.PocketF
open Verif.Pocket (ld st ix rwx)

variable {F : Type} [Zero F] [Add F] [Sub F] [Mul F] [Neg F]

/-- The literals of `rfftp`: those of the complex passes (1510, 1549, 1596-1600, 1824, 1916-1920), the integer `2` converted to
the type (1805, 1833 and others) and `sqrt2` (1864). -/
structure RLits (F : Type) extends Lits F where
  two : F
  sqrt2 : F

/-- 1464-1467 `MULPM`: `(a+ib) = conj(c+id) * (e+if)` -/
def mulpm (c d e f : F) : Cx F := ⟨c * e + d * f, c * f - d * e⟩

/-- `MULPM (dr,di,WA(x,i-2),WA(x,i-1),CC(i-1,k,x+1),CC(i,k,x+1))`: e.g. 1493, 1531-1532. -/
def mulCC (wa cc : List F) (ido l1 i k x : ℕ) : Out (Cx F) := do
  let c ← ld wa (rwx ido x (i - 2))
  let d ← ld wa (rwx ido x (i - 1))
  let e ← ld cc (ix ido l1 (i - 1) k (x + 1))
  let f ← ld cc (ix ido l1 i k (x + 1))
  pure (mulpm c d e f)

/-- `MULPM (CH(i,k,x+1),CH(i-1,k,x+1),WA(x,i-2),WA(x,i-1),di,dr)`: e.g. 1816, 1855-1856; `d = dr + i di`. -/
def mulCH (wa : List F) (ido l1 i k x : ℕ) (d : Cx F) (ch : List F) : Out (List F) := do
  let wr ← ld wa (rwx ido x (i - 2))
  let wi ← ld wa (rwx ido x (i - 1))
  let r := mulpm wr wi d.im d.re
  let ch ← st ch (ix ido l1 i k (x + 1)) r.re
  st ch (ix ido l1 (i - 1) k (x + 1)) r.im

/-- The loop nest that the text of `radf2` ... `radb5` repeats: first the elements 0 (`bodyA`), then, in the
radices 2 and 4 (`mid`), the middle ones of an even `ido` (`bodyM`), then the pairs at `i - 1`, `i` for
`i = 2, 4, ...` (`bodyB`); e.g. 1479-1496, 1517-1542. -/
def radLoop (mid : Bool) (ido l1 : ℕ) (bodyA bodyM : ℕ → List F → Out (List F))
    (bodyB : ℕ → ℕ → List F → Out (List F)) (ch : List F) : Out (List F) := do
  let ch ← forN l1 bodyA ch
  let ch ← (if mid ∧ ido % 2 = 0 then forN l1 bodyM ch else pure ch)
  if ido ≤ (if mid then 2 else 1) then pure ch
  else forN l1 (fun k ch => forN ((ido - 1) / 2) (fun i0 ch => bodyB k (2 * (i0 + 1)) ch) ch) ch

/-! ### forward -/

/-- 1469-1497 `radf2` -/
def radf2 (_L : RLits F) (ido l1 : ℕ) (cc ch wa : List F) : Out (List F) :=
  radLoop true ido l1
    (fun k ch => do
      let a ← ld cc (ix ido l1 0 k 0)
      let b ← ld cc (ix ido l1 0 k 1)
      let ch ← st ch (ix ido 2 0 0 k) (a + b)
      st ch (ix ido 2 (ido - 1) 1 k) (a - b))
    (fun k ch => do
      let b ← ld cc (ix ido l1 (ido - 1) k 1)
      let ch ← st ch (ix ido 2 0 1 k) (-b)
      let a ← ld cc (ix ido l1 (ido - 1) k 0)
      st ch (ix ido 2 (ido - 1) 0 k) a)
    (fun k i ch => do
      let ic := ido - i
      let t2 ← mulCC wa cc ido l1 i k 0
      let a ← ld cc (ix ido l1 (i - 1) k 0)
      let ch ← st ch (ix ido 2 (i - 1) 0 k) (a + t2.re)
      let ch ← st ch (ix ido 2 (ic - 1) 1 k) (a - t2.re)
      let b ← ld cc (ix ido l1 i k 0)
      let ch ← st ch (ix ido 2 i 0 k) (t2.im + b)
      st ch (ix ido 2 ic 1 k) (t2.im - b))
    ch

/-- 1499-1504 `POCKETFFT_REARRANGE`: `(rx, ix)`, `(ry, iy)` -/
def rearrange (x y : Cx F) : Cx F × Cx F :=
  let t1 := x.re + y.re
  let t2 := y.re - x.re
  let t3 := x.im + y.im
  let t4 := x.im - y.im
  (⟨t1, t3⟩, ⟨t4, t2⟩)

/-- 1506-1543 `radf3` -/
def radf3 (L : RLits F) (ido l1 : ℕ) (cc ch wa : List F) : Out (List F) :=
  let taur := L.cos 3 1
  let taui := L.sin 3 1
  radLoop false ido l1
    (fun k ch => do
      let c0 ← ld cc (ix ido l1 0 k 0)
      let c1 ← ld cc (ix ido l1 0 k 1)
      let c2 ← ld cc (ix ido l1 0 k 2)
      let cr2 := c1 + c2
      let ch ← st ch (ix ido 3 0 0 k) (c0 + cr2)
      let ch ← st ch (ix ido 3 0 2 k) (taui * (c2 - c1))
      st ch (ix ido 3 (ido - 1) 1 k) (c0 + taur * cr2))
    (fun _ ch => pure ch)
    (fun k i ch => do
      let ic := ido - i
      let d2 ← mulCC wa cc ido l1 i k 0
      let d3 ← mulCC wa cc ido l1 i k 1
      let r := rearrange d2 d3
      let d2 := r.1
      let d3 := r.2
      let cr ← ld cc (ix ido l1 (i - 1) k 0)
      let ci ← ld cc (ix ido l1 i k 0)
      let ch ← st ch (ix ido 3 (i - 1) 0 k) (cr + d2.re)
      let ch ← st ch (ix ido 3 i 0 k) (ci + d2.im)
      let tr2 := cr + taur * d2.re
      let ti2 := ci + taur * d2.im
      let tr3 := taui * d3.re
      let ti3 := taui * d3.im
      let ch ← st ch (ix ido 3 (i - 1) 2 k) (tr2 + tr3)
      let ch ← st ch (ix ido 3 (ic - 1) 1 k) (tr2 - tr3)
      let ch ← st ch (ix ido 3 i 2 k) (ti3 + ti2)
      st ch (ix ido 3 ic 1 k) (ti3 - ti2))
    ch

/-- 1545-1590 `radf4` -/
def radf4 (L : RLits F) (ido l1 : ℕ) (cc ch wa : List F) : Out (List F) :=
  radLoop true ido l1
    (fun k ch => do
      let c3 ← ld cc (ix ido l1 0 k 3)
      let c1 ← ld cc (ix ido l1 0 k 1)
      let tr1 := c3 + c1
      let ch ← st ch (ix ido 4 0 2 k) (c3 - c1)
      let c0 ← ld cc (ix ido l1 0 k 0)
      let c2 ← ld cc (ix ido l1 0 k 2)
      let tr2 := c0 + c2
      let ch ← st ch (ix ido 4 (ido - 1) 1 k) (c0 - c2)
      let ch ← st ch (ix ido 4 0 0 k) (tr2 + tr1)
      st ch (ix ido 4 (ido - 1) 3 k) (tr2 - tr1))
    (fun k ch => do
      let c1 ← ld cc (ix ido l1 (ido - 1) k 1)
      let c3 ← ld cc (ix ido l1 (ido - 1) k 3)
      let ti1 := -L.hsqt2 * (c1 + c3)
      let tr1 := L.hsqt2 * (c1 - c3)
      let c0 ← ld cc (ix ido l1 (ido - 1) k 0)
      let ch ← st ch (ix ido 4 (ido - 1) 0 k) (c0 + tr1)
      let ch ← st ch (ix ido 4 (ido - 1) 2 k) (c0 - tr1)
      let c2 ← ld cc (ix ido l1 (ido - 1) k 2)
      let ch ← st ch (ix ido 4 0 3 k) (ti1 + c2)
      st ch (ix ido 4 0 1 k) (ti1 - c2))
    (fun k i ch => do
      let ic := ido - i
      let c2 ← mulCC wa cc ido l1 i k 0
      let c3 ← mulCC wa cc ido l1 i k 1
      let c4 ← mulCC wa cc ido l1 i k 2
      let tr1 := c4.re + c2.re
      let tr4 := c4.re - c2.re
      let ti1 := c2.im + c4.im
      let ti4 := c2.im - c4.im
      let r0 ← ld cc (ix ido l1 (i - 1) k 0)
      let tr2 := r0 + c3.re
      let tr3 := r0 - c3.re
      let i0 ← ld cc (ix ido l1 i k 0)
      let ti2 := i0 + c3.im
      let ti3 := i0 - c3.im
      let ch ← st ch (ix ido 4 (i - 1) 0 k) (tr2 + tr1)
      let ch ← st ch (ix ido 4 (ic - 1) 3 k) (tr2 - tr1)
      let ch ← st ch (ix ido 4 i 0 k) (ti1 + ti2)
      let ch ← st ch (ix ido 4 ic 3 k) (ti1 - ti2)
      let ch ← st ch (ix ido 4 (i - 1) 2 k) (tr3 + ti4)
      let ch ← st ch (ix ido 4 (ic - 1) 1 k) (tr3 - ti4)
      let ch ← st ch (ix ido 4 i 2 k) (tr4 + ti3)
      st ch (ix ido 4 ic 1 k) (tr4 - ti3))
    ch

/-- 1592-1644 `radf5` -/
def radf5 (L : RLits F) (ido l1 : ℕ) (cc ch wa : List F) : Out (List F) :=
  let tr11 := L.cos 5 1
  let ti11 := L.sin 5 1
  let tr12 := L.cos 5 2
  let ti12 := L.sin 5 2
  radLoop false ido l1
    (fun k ch => do
      let c0 ← ld cc (ix ido l1 0 k 0)
      let c1 ← ld cc (ix ido l1 0 k 1)
      let c2 ← ld cc (ix ido l1 0 k 2)
      let c3 ← ld cc (ix ido l1 0 k 3)
      let c4 ← ld cc (ix ido l1 0 k 4)
      let cr2 := c4 + c1
      let ci5 := c4 - c1
      let cr3 := c3 + c2
      let ci4 := c3 - c2
      let ch ← st ch (ix ido 5 0 0 k) (c0 + cr2 + cr3)
      let ch ← st ch (ix ido 5 (ido - 1) 1 k) (c0 + tr11 * cr2 + tr12 * cr3)
      let ch ← st ch (ix ido 5 0 2 k) (ti11 * ci5 + ti12 * ci4)
      let ch ← st ch (ix ido 5 (ido - 1) 3 k) (c0 + tr12 * cr2 + tr11 * cr3)
      st ch (ix ido 5 0 4 k) (ti12 * ci5 - ti11 * ci4))
    (fun _ ch => pure ch)
    (fun k i ch => do
      let ic := ido - i
      let d2 ← mulCC wa cc ido l1 i k 0
      let d3 ← mulCC wa cc ido l1 i k 1
      let d4 ← mulCC wa cc ido l1 i k 2
      let d5 ← mulCC wa cc ido l1 i k 3
      let r := rearrange d2 d5
      let d2 := r.1
      let d5 := r.2
      let r := rearrange d3 d4
      let d3 := r.1
      let d4 := r.2
      let cr ← ld cc (ix ido l1 (i - 1) k 0)
      let ci ← ld cc (ix ido l1 i k 0)
      let ch ← st ch (ix ido 5 (i - 1) 0 k) (cr + d2.re + d3.re)
      let ch ← st ch (ix ido 5 i 0 k) (ci + d2.im + d3.im)
      let tr2 := cr + tr11 * d2.re + tr12 * d3.re
      let ti2 := ci + tr11 * d2.im + tr12 * d3.im
      let tr3 := cr + tr12 * d2.re + tr11 * d3.re
      let ti3 := ci + tr12 * d2.im + tr11 * d3.im
      let tr5 := ti11 * d5.re + ti12 * d4.re
      let ti5 := ti11 * d5.im + ti12 * d4.im
      let tr4 := ti12 * d5.re - ti11 * d4.re
      let ti4 := ti12 * d5.im - ti11 * d4.im
      let ch ← st ch (ix ido 5 (i - 1) 2 k) (tr2 + tr5)
      let ch ← st ch (ix ido 5 (ic - 1) 1 k) (tr2 - tr5)
      let ch ← st ch (ix ido 5 i 2 k) (ti5 + ti2)
      let ch ← st ch (ix ido 5 ic 1 k) (ti5 - ti2)
      let ch ← st ch (ix ido 5 (i - 1) 4 k) (tr3 + tr4)
      let ch ← st ch (ix ido 5 (ic - 1) 3 k) (tr3 - tr4)
      let ch ← st ch (ix ido 5 i 4 k) (ti4 + ti3)
      st ch (ix ido 5 ic 3 k) (ti4 - ti3))
    ch


/-- 1790-1818 `radb2` -/
def radb2 (L : RLits F) (ido l1 : ℕ) (cc ch wa : List F) : Out (List F) :=
  radLoop true ido l1
    (fun k ch => do
      let a ← ld cc (ix ido 2 0 0 k)
      let b ← ld cc (ix ido 2 (ido - 1) 1 k)
      let ch ← st ch (ix ido l1 0 k 0) (a + b)
      st ch (ix ido l1 0 k 1) (a - b))
    (fun k ch => do
      let a ← ld cc (ix ido 2 (ido - 1) 0 k)
      let ch ← st ch (ix ido l1 (ido - 1) k 0) (L.two * a)
      let b ← ld cc (ix ido 2 0 1 k)
      st ch (ix ido l1 (ido - 1) k 1) (-L.two * b))
    (fun k i ch => do
      let ic := ido - i
      let a ← ld cc (ix ido 2 (i - 1) 0 k)
      let b ← ld cc (ix ido 2 (ic - 1) 1 k)
      let ch ← st ch (ix ido l1 (i - 1) k 0) (a + b)
      let tr2 := a - b
      let c ← ld cc (ix ido 2 i 0 k)
      let d ← ld cc (ix ido 2 ic 1 k)
      let ti2 := c + d
      let ch ← st ch (ix ido l1 i k 0) (c - d)
      mulCH wa ido l1 i k 0 ⟨tr2, ti2⟩ ch)
    ch

/-- 1820-1858 `radb3` -/
def radb3 (L : RLits F) (ido l1 : ℕ) (cc ch wa : List F) : Out (List F) :=
  let taur := L.cos 3 1
  let taui := L.sin 3 1
  radLoop false ido l1
    (fun k ch => do
      let b ← ld cc (ix ido 3 (ido - 1) 1 k)
      let tr2 := L.two * b
      let a ← ld cc (ix ido 3 0 0 k)
      let cr2 := a + taur * tr2
      let ch ← st ch (ix ido l1 0 k 0) (a + tr2)
      let c ← ld cc (ix ido 3 0 2 k)
      let ci3 := L.two * taui * c
      let ch ← st ch (ix ido l1 0 k 2) (cr2 + ci3)
      st ch (ix ido l1 0 k 1) (cr2 - ci3))
    (fun _ ch => pure ch)
    (fun k i ch => do
      let ic := ido - i
      let p2 ← ld cc (ix ido 3 (i - 1) 2 k)
      let p1 ← ld cc (ix ido 3 (ic - 1) 1 k)
      let q2 ← ld cc (ix ido 3 i 2 k)
      let q1 ← ld cc (ix ido 3 ic 1 k)
      let tr2 := p2 + p1
      let ti2 := q2 - q1
      let p0 ← ld cc (ix ido 3 (i - 1) 0 k)
      let q0 ← ld cc (ix ido 3 i 0 k)
      let cr2 := p0 + taur * tr2
      let ci2 := q0 + taur * ti2
      let ch ← st ch (ix ido l1 (i - 1) k 0) (p0 + tr2)
      let ch ← st ch (ix ido l1 i k 0) (q0 + ti2)
      let cr3 := taui * (p2 - p1)
      let ci3 := taui * (q2 + q1)
      let dr3 := cr2 + ci3
      let dr2 := cr2 - ci3
      let di2 := ci2 + cr3
      let di3 := ci2 - cr3
      let ch ← mulCH wa ido l1 i k 0 ⟨dr2, di2⟩ ch
      mulCH wa ido l1 i k 1 ⟨dr3, di3⟩ ch)
    ch

/-- 1860-1910 `radb4` -/
def radb4 (L : RLits F) (ido l1 : ℕ) (cc ch wa : List F) : Out (List F) :=
  let sqrt2 := L.sqrt2
  radLoop true ido l1
    (fun k ch => do
      let a ← ld cc (ix ido 4 0 0 k)
      let b ← ld cc (ix ido 4 (ido - 1) 3 k)
      let tr2 := a + b
      let tr1 := a - b
      let c ← ld cc (ix ido 4 (ido - 1) 1 k)
      let tr3 := L.two * c
      let d ← ld cc (ix ido 4 0 2 k)
      let tr4 := L.two * d
      let ch ← st ch (ix ido l1 0 k 0) (tr2 + tr3)
      let ch ← st ch (ix ido l1 0 k 2) (tr2 - tr3)
      let ch ← st ch (ix ido l1 0 k 3) (tr1 + tr4)
      st ch (ix ido l1 0 k 1) (tr1 - tr4))
    (fun k ch => do
      let a ← ld cc (ix ido 4 0 3 k)
      let b ← ld cc (ix ido 4 0 1 k)
      let ti1 := a + b
      let ti2 := a - b
      let c ← ld cc (ix ido 4 (ido - 1) 0 k)
      let d ← ld cc (ix ido 4 (ido - 1) 2 k)
      let tr2 := c + d
      let tr1 := c - d
      let ch ← st ch (ix ido l1 (ido - 1) k 0) (tr2 + tr2)
      let ch ← st ch (ix ido l1 (ido - 1) k 1) (sqrt2 * (tr1 - ti1))
      let ch ← st ch (ix ido l1 (ido - 1) k 2) (ti2 + ti2)
      st ch (ix ido l1 (ido - 1) k 3) (-sqrt2 * (tr1 + ti1)))
    (fun k i ch => do
      let ic := ido - i
      let p0 ← ld cc (ix ido 4 (i - 1) 0 k)
      let p3 ← ld cc (ix ido 4 (ic - 1) 3 k)
      let tr2 := p0 + p3
      let tr1 := p0 - p3
      let q0 ← ld cc (ix ido 4 i 0 k)
      let q3 ← ld cc (ix ido 4 ic 3 k)
      let ti1 := q0 + q3
      let ti2 := q0 - q3
      let q2 ← ld cc (ix ido 4 i 2 k)
      let q1 ← ld cc (ix ido 4 ic 1 k)
      let tr4 := q2 + q1
      let ti3 := q2 - q1
      let p2 ← ld cc (ix ido 4 (i - 1) 2 k)
      let p1 ← ld cc (ix ido 4 (ic - 1) 1 k)
      let tr3 := p2 + p1
      let ti4 := p2 - p1
      let ch ← st ch (ix ido l1 (i - 1) k 0) (tr2 + tr3)
      let cr3 := tr2 - tr3
      let ch ← st ch (ix ido l1 i k 0) (ti2 + ti3)
      let ci3 := ti2 - ti3
      let cr4 := tr1 + tr4
      let cr2 := tr1 - tr4
      let ci2 := ti1 + ti4
      let ci4 := ti1 - ti4
      let ch ← mulCH wa ido l1 i k 0 ⟨cr2, ci2⟩ ch
      let ch ← mulCH wa ido l1 i k 1 ⟨cr3, ci3⟩ ch
      mulCH wa ido l1 i k 2 ⟨cr4, ci4⟩ ch)
    ch

/-- 1912-1969 `radb5` -/
def radb5 (L : RLits F) (ido l1 : ℕ) (cc ch wa : List F) : Out (List F) :=
  let tr11 := L.cos 5 1
  let ti11 := L.sin 5 1
  let tr12 := L.cos 5 2
  let ti12 := L.sin 5 2
  radLoop false ido l1
    (fun k ch => do
      let c2 ← ld cc (ix ido 5 0 2 k)
      let ti5 := c2 + c2
      let c4 ← ld cc (ix ido 5 0 4 k)
      let ti4 := c4 + c4
      let c1 ← ld cc (ix ido 5 (ido - 1) 1 k)
      let tr2 := c1 + c1
      let c3 ← ld cc (ix ido 5 (ido - 1) 3 k)
      let tr3 := c3 + c3
      let c0 ← ld cc (ix ido 5 0 0 k)
      let ch ← st ch (ix ido l1 0 k 0) (c0 + tr2 + tr3)
      let cr2 := c0 + tr11 * tr2 + tr12 * tr3
      let cr3 := c0 + tr12 * tr2 + tr11 * tr3
      let ci := mulpm ti5 ti4 ti11 ti12
      let ci5 := ci.re
      let ci4 := ci.im
      let ch ← st ch (ix ido l1 0 k 4) (cr2 + ci5)
      let ch ← st ch (ix ido l1 0 k 1) (cr2 - ci5)
      let ch ← st ch (ix ido l1 0 k 3) (cr3 + ci4)
      st ch (ix ido l1 0 k 2) (cr3 - ci4))
    (fun _ ch => pure ch)
    (fun k i ch => do
      let ic := ido - i
      let p2 ← ld cc (ix ido 5 (i - 1) 2 k)
      let p1 ← ld cc (ix ido 5 (ic - 1) 1 k)
      let tr2 := p2 + p1
      let tr5 := p2 - p1
      let q2 ← ld cc (ix ido 5 i 2 k)
      let q1 ← ld cc (ix ido 5 ic 1 k)
      let ti5 := q2 + q1
      let ti2 := q2 - q1
      let p4 ← ld cc (ix ido 5 (i - 1) 4 k)
      let p3 ← ld cc (ix ido 5 (ic - 1) 3 k)
      let tr3 := p4 + p3
      let tr4 := p4 - p3
      let q4 ← ld cc (ix ido 5 i 4 k)
      let q3 ← ld cc (ix ido 5 ic 3 k)
      let ti4 := q4 + q3
      let ti3 := q4 - q3
      let p0 ← ld cc (ix ido 5 (i - 1) 0 k)
      let q0 ← ld cc (ix ido 5 i 0 k)
      let ch ← st ch (ix ido l1 (i - 1) k 0) (p0 + tr2 + tr3)
      let ch ← st ch (ix ido l1 i k 0) (q0 + ti2 + ti3)
      let cr2 := p0 + tr11 * tr2 + tr12 * tr3
      let ci2 := q0 + tr11 * ti2 + tr12 * ti3
      let cr3 := p0 + tr12 * tr2 + tr11 * tr3
      let ci3 := q0 + tr12 * ti2 + tr11 * ti3
      let cr := mulpm tr5 tr4 ti11 ti12
      let cr5 := cr.re
      let cr4 := cr.im
      let ci := mulpm ti5 ti4 ti11 ti12
      let ci5 := ci.re
      let ci4 := ci.im
      let dr4 := cr3 + ci4
      let dr3 := cr3 - ci4
      let di3 := ci3 + cr4
      let di4 := ci3 - cr4
      let dr5 := cr2 + ci5
      let dr2 := cr2 - ci5
      let di2 := ci2 + cr5
      let di5 := ci2 - cr5
      let ch ← mulCH wa ido l1 i k 0 ⟨dr2, di2⟩ ch
      let ch ← mulCH wa ido l1 i k 1 ⟨dr3, di3⟩ ch
      let ch ← mulCH wa ido l1 i k 2 ⟨dr4, di4⟩ ch
      mulCH wa ido l1 i k 3 ⟨dr5, di5⟩ ch)
    ch

/-! ### plan and execution -/

/-- 1453-1457 `fctdata`, without the table of the generic radix -/
structure RFactor (F : Type) where
  fct : ℕ
  tw : List F

/-- 2206-2222 `comp_twiddle`: the table of one factor, from the table `tw idx` of the values `exp (2 π i idx / length)`.
Entry `(j - 1) (ido - 1) + 2 i - 2` is a real part, the next one the imaginary part.  (For an even `ido` the last entry of
every row is uninitialised in the C++ text; it is never read.  The tables of the last factor, which the text leaves empty, are
empty here too, as `ido` is 1.) -/
def rtwiddle (tw : ℕ → Cx F) (l1 ip ido : ℕ) : RFactor F :=
  ⟨ip, (List.range ((ip - 1) * (ido - 1))).map fun n =>
    let v := tw ((n / (ido - 1) + 1) * l1 * (n % (ido - 1) / 2 + 1))
    if n % (ido - 1) % 2 = 0 then v.re else v.im⟩

/-- 2206-2239 `comp_twiddle` -/
def rtwiddles (tw : ℕ → Cx F) (length : ℕ) : ℕ → List ℕ → List (RFactor F)
  | _, [] => []
  | l1, ip :: fs => rtwiddle tw l1 ip (length / (l1 * ip)) :: rtwiddles tw length (l1 * ip) fs

/-- 2133-2147, one factor: the contents of `p1`, `p2` after the exchange of the pointers -/
def radf (L : RLits F) (ido l1 : ℕ) (f : RFactor F) (p1 p2 : List F) : Out (List F × List F) := do
  if f.fct = 4 then do
    let p2 ← radf4 L ido l1 p1 p2 f.tw
    pure (p2, p1)
  else if f.fct = 2 then do
    let p2 ← radf2 L ido l1 p1 p2 f.tw
    pure (p2, p1)
  else if f.fct = 3 then do
    let p2 ← radf3 L ido l1 p1 p2 f.tw
    pure (p2, p1)
  else if f.fct = 5 then do
    let p2 ← radf5 L ido l1 p1 p2 f.tw
    pure (p2, p1)
  else .ub

/-- 2131-2148: the loop over the factors from the last to the first; the list is given in that order -/
def r2hcLoop (L : RLits F) (n : ℕ) : ℕ → List (RFactor F) → List F → List F → Out (List F)
  | _, [], p1, _ => pure p1
  | l1, f :: fs, p1, p2 => do
    let ido := n / l1
    let l1 := l1 / f.fct
    let r ← radf L ido l1 f p1 p2
    r2hcLoop L n l1 fs r.1 r.2

/-- 2152-2164, one factor -/
def radb (L : RLits F) (ido l1 : ℕ) (f : RFactor F) (p1 p2 : List F) : Out (List F × List F) := do
  if f.fct = 4 then do
    let p2 ← radb4 L ido l1 p1 p2 f.tw
    pure (p2, p1)
  else if f.fct = 2 then do
    let p2 ← radb2 L ido l1 p1 p2 f.tw
    pure (p2, p1)
  else if f.fct = 3 then do
    let p2 ← radb3 L ido l1 p1 p2 f.tw
    pure (p2, p1)
  else if f.fct = 5 then do
    let p2 ← radb5 L ido l1 p1 p2 f.tw
    pure (p2, p1)
  else .ub

/-- 2150-2166: the loop over the factors of the backward transform -/
def hc2rLoop (L : RLits F) (n : ℕ) : ℕ → List (RFactor F) → List F → List F → Out (List F)
  | _, [], p1, _ => pure p1
  | l1, f :: fs, p1, p2 => do
    let ido := n / (f.fct * l1)
    let r ← radb L ido l1 f p1 p2
    hc2rLoop L n (l1 * f.fct) fs r.1 r.2

/-- 2123-2169 `rfftp::exec` with the factors of 2172-2191 `factorize` and the tables of 2206-2239 `comp_twiddle`.
`scratch` is the uninitialised buffer `ch`.  `fct = none` is `fct == 1` (2106-2120 `copy_and_norm`): after an even number of
exchanges the result is in `c` and is multiplied in place, `c[i] *= fct`, otherwise `c[i] = fct*p1[i]`. -/
def rfftExec (L : RLits F) (tw : ℕ → Cx F) (r2hc : Bool) (fct : Option F) (c scratch : List F) : Out (List F) :=
  if c.length = 0 then .throws
  else if c.length = 1 then .ok (match fct with | none => c | some f => c.map (· * f))
  else do
    let fs ← Pocket.rfactorize c.length
    let fact := rtwiddles tw c.length 1 fs
    let p1 ← (if r2hc then r2hcLoop L c.length c.length fact.reverse c scratch else hc2rLoop L c.length 1 fact c scratch)
    .ok (match fct with
      | none => p1
      | some f => if fs.length % 2 = 0 then p1.map (· * f) else p1.map (f * ·))

/-- 3331-3343 `r2c` and 3136-3190 `general_r2c`, forward, of a contiguous one-dimensional array, as
`Pocket.pr2cWith`, when the plan is `rfftp`.  `tmp` and `scratch` are uninitialised buffers, `out` is the previous content
of the output array. -/
def r2cExec (L : RLits F) (tw : ℕ → Cx F) (fct : Option F) (x tmp scratch : List F) (out : List (Cx F)) : Out (List (Cx F)) := do
  let tdata ← forN x.length (fun i buf => do
    let v ← ld x i
    st buf i v) tmp
  let tdata ← rfftExec L tw true fct tdata scratch
  let t0 ← ld tdata 0
  let out ← st out 0 ⟨t0, 0⟩
  let out ← forN ((x.length - 1) / 2) (fun n out => do
    let ii := n + 1
    let i := 2 * ii - 1
    let re ← ld tdata i
    let im ← ld tdata (i + 1)
    st out ii ⟨re, im⟩) out
  let ii := (x.length - 1) / 2 + 1
  let i := 2 * ii - 1
  if i < x.length then do
    let re ← ld tdata i
    st out ii ⟨re, 0⟩
  else pure out

/-- 3363-3375 `c2r` and 3191-3261 `general_c2r`, backward, likewise, as `Pocket.pc2rWith` -/
def c2rExec (L : RLits F) (tw : ℕ → Cx F) (fct : Option F) (X : List (Cx F)) (tmp scratch out : List F) : Out (List F) := do
  let len := out.length
  let x0 ← ld X 0
  let tdata ← st tmp 0 x0.re
  let tdata ← forN ((len - 1) / 2) (fun n tdata => do
    let ii := n + 1
    let i := 2 * ii - 1
    let z ← ld X ii
    let tdata ← st tdata i z.re
    st tdata (i + 1) z.im) tdata
  let ii := (len - 1) / 2 + 1
  let i := 2 * ii - 1
  let tdata ← (if i < len then do
      let z ← ld X ii
      st tdata i z.re
    else pure tdata)
  let tdata ← rfftExec L tw false fct tdata scratch
  forN len (fun i out => do
    let v ← ld tdata i
    st out i v) out

end Verif.PocketF
