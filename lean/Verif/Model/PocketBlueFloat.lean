import Verif.Model.PocketFloat
import Verif.Model.PocketBlue
import Mathlib.Data.Real.Basic

/-!
# Model of Bluestein's algorithm and of plan selection over an arbitrary scalar type
(include/dspbb/PocketFFT/pocketfft_hdronly.h)

`Model/PocketBlue.lean` models these functions with exact complex numbers.  Here the same statements are written over
any type `F` with `+`, `-`, `*` and negation, so that `F` can be a floating point type.  The parameters and
simplifications are those of `Model/PocketFloat.lean`; moreover `xn2` is the value of `T0(1)/T0(n2)` (2314) and `tw2`,
`tmp` are the tables of `sincos_2pibyn<T0>(n2)` and `sincos_2pibyn<T0>(2*n)` (1410, 2302).
-/

namespace Verif.PocketF
open Verif.Pocket (ld st fresh)

variable {F : Type} [Zero F] [Add F] [Sub F] [Mul F] [Neg F]

/-- 2260-2263 the members of `fftblue`; `tw` is the table of `plan` -/
structure Blue (F : Type) where
  n : ℕ
  n2 : ℕ
  tw : ℕ → Cx F
  bk : List (Cx F)
  bkf : List (Cx F)

/-- 2301-2310: `b_k` -/
def blueBk (one : F) (tmp : ℕ → Cx F) (n : ℕ) (junk : ℕ → Cx F) : Out (List (Cx F)) := do
  let bk ← st (fresh junk n) 0 ⟨one, 0⟩
  let s ← forN (n - 1) (fun m0 s => do
    let m := m0 + 1
    let coeff := s.1 + (2 * m - 1)
    let coeff := if coeff ≥ 2 * n then coeff - 2 * n else coeff
    let bk ← st s.2 m (tmp coeff)
    pure (coeff, bk)) (0, bk)
  pure s.2

/-- 2313-2319: the padded `b_k`, before its transform -/
def blueTbkf (xn2 : F) (n n2 : ℕ) (bk : List (Cx F)) (junk : ℕ → Cx F) : Out (List (Cx F)) := do
  let b0 ← ld bk 0
  let tbkf ← st (fresh junk n2) 0 (b0.scale xn2)
  let tbkf ← forN (n - 1) (fun m0 tbkf => do
    let m := m0 + 1
    let b ← ld bk m
    let tbkf ← st tbkf (n2 - m) (b.scale xn2)
    st tbkf m (b.scale xn2)) tbkf
  forN (n2 - n + 1 - n) (fun m0 tbkf => st tbkf (n + m0) ⟨0, 0⟩) tbkf

/-- 2297-2323 the constructor of `fftblue` -/
def fftblue (L : Lits F) (one xn2 : F) (tw2 tmp : ℕ → Cx F) (length : ℕ) (junk : ℕ → Cx F) : Out (Blue F) := do
  let n := length
  let n2 ← Pocket.goodSizeCmplx (n * 2 - 1)
  let bk ← blueBk one tmp n junk
  let tbkf ← blueTbkf xn2 n n2 bk junk
  let tbkf ← cfftExec L one tw2 true none tbkf (fresh junk n2)
  let bkf ← forN (n2 / 2 + 1) (fun i bkf => do
    let v ← ld tbkf i
    st bkf i v) (fresh junk (n2 / 2 + 1))
  pure ⟨n, n2, tw2, bk, bkf⟩

/-- 2269-2274: `a_k`, zero-padded -/
def blueStart (p : Blue F) (fwd : Bool) (c : List (Cx F)) (junk : ℕ → Cx F) : Out (List (Cx F)) := do
  let akf ← forN p.n (fun m akf => do
    let x ← ld c m
    let b ← ld p.bk m
    st akf m (smul fwd x b)) (fresh junk p.n2)
  let a0 ← ld akf 0
  let zero := a0.scale 0
  forN (p.n2 - p.n) (fun m0 akf => st akf (p.n + m0) zero) akf

/-- 2279-2286: the pointwise product -/
def blueMul (p : Blue F) (fwd : Bool) (akf : List (Cx F)) : Out (List (Cx F)) := do
  let x ← ld akf 0
  let b ← ld p.bkf 0
  let akf ← st akf 0 (smul (!fwd) x b)
  let akf ← forN ((p.n2 + 1) / 2 - 1) (fun m0 akf => do
    let m := m0 + 1
    let b ← ld p.bkf m
    let x ← ld akf m
    let akf ← st akf m (smul (!fwd) x b)
    let x ← ld akf (p.n2 - m)
    st akf (p.n2 - m) (smul (!fwd) x b)) akf
  if p.n2 % 2 = 0 then do
    let x ← ld akf (p.n2 / 2)
    let b ← ld p.bkf (p.n2 / 2)
    st akf (p.n2 / 2) (smul (!fwd) x b)
  else pure akf

/-- 2265-2294 `fft<fwd>`, 2326-2327 `exec` -/
def Blue.exec (L : Lits F) (one : F) (p : Blue F) (c : List (Cx F)) (fct : F) (fwd : Bool) (junk : ℕ → Cx F) :
    Out (List (Cx F)) := do
  let akf ← blueStart p fwd c junk
  let akf ← cfftExec L one p.tw true none akf (fresh junk p.n2)
  let akf ← blueMul p fwd akf
  let akf ← cfftExec L one p.tw false none akf (fresh junk p.n2)
  forN p.n (fun m c => do
    let x ← ld akf m
    let b ← ld p.bk m
    st c m ((smul fwd x b).scale fct)) c

/-! ### 2360-2391 `pocketfft_c` -/

/-- 2363-2364: which of the two plans exists; a mixed-radix plan is its length and its table -/
inductive CxPlan (F : Type) where
  | pack (tw : ℕ → Cx F)
  | blue (p : Blue F)

open Classical in
/-- 2368-2385 the constructor of `pocketfft_c`.  `tw`, `tw2`, `tmp` are the tables for the lengths `length`, `n2` and
`2 * length`; `cost` is 376-391 `cost_guess`, evaluated in `double`: any function, since it only selects a plan. -/
noncomputable def pocketfftC (L : Lits F) (one xn2 : F) (tw tw2 tmp : ℕ → Cx F) (cost : ℕ → ℝ) (length : ℕ)
    (junk : ℕ → Cx F) : Out (CxPlan F) := do
  if length = 0 then .throws
  else do
    let tmp' ← if length < 50 then pure 0 else Pocket.largestPrimeFactor length
    if tmp' * tmp' ≤ length then pure (.pack tw)
    else do
      let good ← Pocket.goodSizeCmplx (2 * length - 1)
      if 2 * cost good * 1.5 < cost length then do
        let p ← fftblue L one xn2 tw2 tmp length junk
        pure (.blue p)
      else pure (.pack tw)

/-- 2387-2388 `pocketfft_c::exec`.  `fct = none` is `fct == 1`; the mixed-radix plan then skips the multiplication,
Bluestein's does not. -/
def CxPlan.exec (L : Lits F) (one : F) (p : CxPlan F) (c : List (Cx F)) (fct : Option F) (fwd : Bool)
    (junk : ℕ → Cx F) : Out (List (Cx F)) :=
  match p with
  | .pack tw => cfftExec L one tw fwd fct c (fresh junk c.length)
  | .blue q => q.exec L one c (fct.getD one) fwd junk

/-- 3283-3293 `c2c` of a contiguous one-dimensional array (see `Pocket.c2c`): the input is copied to `out`, where the
transform runs -/
noncomputable def c2c (L : Lits F) (one xn2 : F) (tw tw2 tmp : ℕ → Cx F) (cost : ℕ → ℝ) (fwd : Bool) (fct : Option F)
    (x out : List (Cx F)) (junk : ℕ → Cx F) : Out (List (Cx F)) :=
  if x.length = 0 then pure out
  else do
    let plan ← pocketfftC L one xn2 tw tw2 tmp cost x.length junk
    let buf ← forN x.length (fun i buf => do
      let v ← ld x i
      st buf i v) out
    plan.exec L one buf fct fwd junk

end Verif.PocketF
