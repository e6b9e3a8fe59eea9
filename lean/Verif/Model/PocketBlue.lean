import Verif.Model.PocketFFT

/-!
# Model of the bundled FFT, part 2: plan selection and Bluestein's algorithm
(include/dspbb/PocketFFT/pocketfft_hdronly.h)

`size_t` products are exact: the model is of transform lengths far below `2 ^ 60` (the loops multiply by
at most 11 beyond `2 * n`).  The contents of freshly allocated (uninitialised) buffers are an arbitrary
function `junk`.
-/

namespace Verif.Pocket
open Complex

/-! ### 362-443 `util` -/

/-- 364-374 `largest_prime_factor` -/
def largestPrimeFactor (n : ℕ) : Out ℕ := do
  let s ← whileN (n + 1) (fun s : ℕ × ℕ => decide (s.2 % 2 = 0)) (fun s => .ok (2, s.2 / 2)) (1, n)
  let s ← whileN (n + 1) (fun s : (ℕ × ℕ) × ℕ => decide (s.2 * s.2 ≤ s.1.2)) (fun s => do
    let t ← whileN (n + 1) (fun t : ℕ × ℕ => decide (t.2 % s.2 = 0)) (fun t => .ok (s.2, t.2 / s.2)) s.1
    pure (t, s.2 + 2)) (s, 3)
  let s := s.1
  pure (if s.2 > 1 then s.2 else s.1)

/-- 376-391 `cost_guess`; `double` is modelled by the reals.  The value only selects between two plans
that compute the same transform. -/
noncomputable def costGuess (n : ℕ) : Out ℝ := do
  let lfp : ℝ := 1.1
  let s ← whileN (n + 1) (fun s : ℝ × ℕ => decide (s.2 % 2 = 0)) (fun s => .ok (s.1 + 2, s.2 / 2)) (0, n)
  let s ← whileN (n + 1) (fun s : (ℝ × ℕ) × ℕ => decide (s.2 * s.2 ≤ s.1.2)) (fun s => do
    let t ← whileN (n + 1) (fun t : ℝ × ℕ => decide (t.2 % s.2 = 0))
      (fun t => .ok (t.1 + (if s.2 ≤ 5 then (s.2 : ℝ) else lfp * s.2), t.2 / s.2)) s.1
    pure (t, s.2 + 2)) (s, 3)
  let s := s.1
  let result := if s.2 > 1 then s.1 + (if s.2 ≤ 5 then (s.2 : ℝ) else lfp * s.2) else s.1
  pure (result * n)

/-- The variables of the loop 405-417; `stop` says that the loop was left, `ret` by `return n`. -/
structure Stair where
  x : ℕ
  best : ℕ
  stop : Bool
  ret : Bool

/-- 403-417 (the body of the innermost `for`), also 431-444: the new `bestfac` and whether `return n`
was executed. -/
def stair (n f best : ℕ) : Out (ℕ × Bool) := do
  let x ← whileN (n + 1) (fun x : ℕ => decide (x < n)) (fun x => .ok (x * 2)) f
  let s ← whileN (2 * n + 3) (fun s : Stair => !s.stop) (fun s =>
    if s.x < n then .ok { s with x := s.x * 3 }
    else if s.x > n then
      let best := if s.x < s.best then s.x else s.best
      if s.x % 2 = 1 then .ok ⟨s.x, best, true, false⟩
      else .ok ⟨s.x / 2, best, false, false⟩
    else .ok ⟨s.x, s.best, true, true⟩) (⟨x, best, false, false⟩ : Stair)
  pure (s.best, s.ret)

/-- The variables of one of the loops 399-401, 428. -/
structure Geo where
  f : ℕ
  best : ℕ
  ret : Bool

/-- One of the loops `for (size_t f=g; f<bestfac; f*=p)` of 399-401, 428. -/
def geoLoop (n g p : ℕ) (body : ℕ → ℕ → Out (ℕ × Bool)) (best : ℕ) : Out (ℕ × Bool) := do
  let s ← whileN (2 * n + 1) (fun s : Geo => !s.ret && decide (s.f < s.best)) (fun s => do
    let r ← body s.f s.best
    pure (⟨s.f * p, r.1, r.2⟩ : Geo)) ⟨g, best, false⟩
  pure (s.best, s.ret)

/-- 393-420 `good_size_cmplx` -/
def goodSizeCmplx (n : ℕ) : Out ℕ :=
  if n ≤ 12 then pure n
  else do
    let r ← geoLoop n 1 11 (fun f11 => geoLoop n f11 7 (fun f117 => geoLoop n f117 5 (fun f1175 => stair n f1175)))
      (2 * n)
    pure (if r.2 then n else r.1)

/-- 422-446 `good_size_real` -/
def goodSizeReal (n : ℕ) : Out ℕ :=
  if n ≤ 6 then pure n
  else do
    let r ← geoLoop n 1 5 (fun f5 => stair n f5) (2 * n)
    pure (if r.2 then n else r.1)

/-! ### 2257-2358 `fftblue` -/

/-- 2260-2263 the members of `fftblue` (`bk` and `bkf` are the two parts of `mem`). -/
structure Blue where
  n : ℕ
  n2 : ℕ
  plan : CPlan
  bk : List ℂ
  bkf : List ℂ

/-- A buffer that was just allocated. -/
def fresh {α : Type u} (junk : ℕ → α) (n : ℕ) : List α := (List.range n).map junk

/-- 2301-2310: `b_k` -/
def blueBk (t : SinCos) (n : ℕ) (junk : ℕ → ℂ) : Out (List ℂ) := do
  let bk ← st (fresh junk n) 0 ⟨1, 0⟩
  let s ← forN (n - 1) (fun m0 s => do
    let m := m0 + 1
    let coeff := s.1 + (2 * m - 1)
    let coeff := if coeff ≥ 2 * n then coeff - 2 * n else coeff
    let v ← t.get coeff
    let bk ← st s.2 m v
    pure (coeff, bk)) (0, bk)
  pure s.2

/-- 2313-2319: the padded `b_k`, before its transform -/
noncomputable def blueTbkf (n n2 : ℕ) (bk : List ℂ) (junk : ℕ → ℂ) : Out (List ℂ) := do
  let xn2 : ℝ := 1 / n2
  let b0 ← ld bk 0
  let tbkf ← st (fresh junk n2) 0 (b0 * (xn2 : ℂ))
  let tbkf ← forN (n - 1) (fun m0 tbkf => do
    let m := m0 + 1
    let b ← ld bk m
    let tbkf ← st tbkf (n2 - m) (b * (xn2 : ℂ))
    st tbkf m (b * (xn2 : ℂ))) tbkf
  forN (n2 - n + 1 - n) (fun m0 tbkf => st tbkf (n + m0) ⟨0, 0⟩) tbkf

/-- 2297-2323 the constructor of `fftblue` -/
noncomputable def fftblue (length : ℕ) (junk : ℕ → ℂ) : Out Blue := do
  let n := length
  let n2 ← goodSizeCmplx (n * 2 - 1)
  let plan ← cfftp n2
  let tmp ← sincos (2 * n)
  let bk ← blueBk tmp n junk
  let tbkf ← blueTbkf n n2 bk junk
  let tbkf ← plan.exec tbkf (fresh junk n2) 1 true
  let bkf ← forN (n2 / 2 + 1) (fun i bkf => do
    let v ← ld tbkf i
    st bkf i v) (fresh junk (n2 / 2 + 1))
  pure ⟨n, n2, plan, bk, bkf⟩

/-- 2269-2274: `a_k`, zero-padded -/
def blueStart (p : Blue) (fwd : Bool) (c : List ℂ) (junk : ℕ → ℂ) : Out (List ℂ) := do
  let akf ← forN p.n (fun m akf => do
    let x ← ld c m
    let b ← ld p.bk m
    st akf m (smul fwd x b)) (fresh junk p.n2)
  let a0 ← ld akf 0
  let zero := a0 * 0
  forN (p.n2 - p.n) (fun m0 akf => st akf (p.n + m0) zero) akf

/-- 2279-2286: the pointwise product -/
def blueMul (p : Blue) (fwd : Bool) (akf : List ℂ) : Out (List ℂ) := do
  let x ← ld akf 0
  let b ← ld p.bkf 0
  let akf ← st akf 0 (smul (!fwd) x b)
  let akf ← forN ((p.n2 + 1) / 2 - 1) (fun m0 akf => do
    let m := m0 + 1
    let b ← ld p.bkf m
    let x ← ld akf m
    let akf ← st akf m (smul (!fwd) x b)
    let x ← ld akf (p.n2 - m)
    st akf (p.n2 - m) (smul (!fwd) x b)) akf
  if p.n2 % 2 = 0 then do
    let x ← ld akf (p.n2 / 2)
    let b ← ld p.bkf (p.n2 / 2)
    st akf (p.n2 / 2) (smul (!fwd) x b)
  else pure akf

/-- 2265-2294 `fft<fwd>`, 2326-2327 `exec` -/
noncomputable def Blue.exec (p : Blue) (c : List ℂ) (fct : ℝ) (fwd : Bool) (junk : ℕ → ℂ) : Out (List ℂ) := do
  let akf ← blueStart p fwd c junk
  let akf ← p.plan.exec akf (fresh junk p.n2) 1 true
  let akf ← blueMul p fwd akf
  let akf ← p.plan.exec akf (fresh junk p.n2) 1 false
  forN p.n (fun m c => do
    let x ← ld akf m
    let b ← ld p.bk m
    st c m (smul fwd x b * (fct : ℂ))) c

/-! ### 2360-2391 `pocketfft_c` and the complex interface -/

/-- 2363-2364: which of the two plans exists -/
inductive CxPlan where
  | pack (p : CPlan)
  | blue (p : Blue)

open Classical in
/-- 2368-2385 the constructor of `pocketfft_c` -/
noncomputable def pocketfftC (length : ℕ) (junk : ℕ → ℂ) : Out CxPlan := do
  if length = 0 then .throws
  else do
    let tmp ← if length < 50 then pure 0 else largestPrimeFactor length
    if tmp * tmp ≤ length then do
      let p ← cfftp length
      pure (.pack p)
    else do
      let comp1 ← costGuess length
      let good ← goodSizeCmplx (2 * length - 1)
      let comp2 ← costGuess good
      if 2 * comp2 * 1.5 < comp1 then do
        let p ← fftblue length junk
        pure (.blue p)
      else do
        let p ← cfftp length
        pure (.pack p)

/-- 2387-2388 `pocketfft_c::exec` -/
noncomputable def CxPlan.exec (p : CxPlan) (c : List ℂ) (fct : ℝ) (fwd : Bool) (junk : ℕ → ℂ) : Out (List ℂ) :=
  match p with
  | .pack q => q.exec c (fresh junk c.length) fct fwd
  | .blue q => q.exec c fct fwd junk

/-- `c2c`, after `get_plan` (2666-2717, Model/PlanCache) has returned `plan` -/
noncomputable def c2cWith (plan : CxPlan) (fwd : Bool) (fct : ℝ) (x out : List ℂ) (junk : ℕ → ℂ) : Out (List ℂ) := do
  let buf ← forN x.length (fun i buf => do
    let v ← ld x i
    st buf i v) out
  plan.exec buf fct fwd junk

/-- 3283-3293 `c2c` of a contiguous one-dimensional array, with 3022-3061 `general_nd` and 3063-3075
`ExecC2C`: one iteration, no vectors (one transform is left to do, fewer than a vector holds), no threads;
the transform runs in `out` itself (stride 1), into which the input is copied first.  `out` is the previous
content of the output array. -/
noncomputable def c2c (fwd : Bool) (fct : ℝ) (x out : List ℂ) (junk : ℕ → ℂ) : Out (List ℂ) :=
  if x.length = 0 then pure out
  else do
    let plan ← pocketfftC x.length junk
    c2cWith plan fwd fct x out junk

end Verif.Pocket
