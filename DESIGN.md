# Formal model of petiaccja/DSPBB in Lean 4 — design

## Layout

* `lean/Verif/Cpp.lean` — vocabulary: outcomes of a C++ call (`ok`, `assertFail`, `throws`, `ub`),
  checked buffer reads/writes (`rd`, `wr`), counted loops (`forN`), loops with a step budget (`whileN`).
* `lean/Verif/Model/*.lean` — the model, function by function; every definition cites file:lines.
* `lean/Verif/Spec/*.lean` — small independent specifications (no reference to the model).
* `lean/Verif/Lemmas/*.lean` — helper lemmas.
* `lean/Verif/Props/*.lean` — the property theorems (named `Cnn_...`), each with a concrete example meeting
  its hypotheses.
* `properties.jsonl`, `MANIFEST.json`, `seeded/LOG.jsonl` — the properties, what is proved of each, and the
  wrong programs the theorems were tried on.

## Modelling conventions

* **Outcomes.** A C++ function that can fail an assertion, throw, or run into undefined behaviour is
  modelled as returning `Out α`. Pointer reads/writes are range checked and yield `ub` outside. A theorem of
  the form `f args = .ok r ∧ …` therefore includes "no assertion fails, nothing is thrown, no access is out
  of range".
* **Numbers.** Element types are an arbitrary commutative ring/field (or ℝ, ℂ where order or analysis is
  needed): floating point rounding, overflow and signed zeros are *not* modelled. Exceptions: the reduction and
  transformation theorems (C08–C10) hold for every operation whatsoever, so they speak about float
  addition as well; descriptor validation (C52) is over reals extended with NaN; division in generators and
  filter design (`fdiv`) has "not a number" as an explicit outcome when the divisor is zero. C73, C74 and C83 are about
  floating point: the same kernels over a type `F` of which only what IEEE 754 guarantees per operation is
  assumed (`Spec/FloatArith.lean`: relative error `u`, underflow `tiny`, no overflow below `huge`; multiply-add fused or
  not). `Lemmas/BinaryFormat.lean` constructs a format (`Bin 24 (-149)`: binary32) that satisfies the assumptions. Compiler
  contraction/reassociation (`-ffast-math`) and complex-valued floats are outside.
* **`Rational<T>`** is modelled over range-checked fixed-width signed integers; overflow is `ub`.
* **Sizes** are unbounded naturals/integers; wrap-around of `size_t` is modelled (`usub`) where the code
  subtracts sizes in a way that may wrap.
* **SIMD** (`xsimd::batch`) is a list of `W` lanes for arbitrary `W >= 1`; lane operations are
  the scalar operation applied lane-wise. Theorems hold for every `W`, so also for the scalar build.
* **Signals and views.** A `Signal` is the list of its elements. Where aliasing matters (in-place arithmetic,
  generators writing into a view, polyphase buffers) a view is a window `Span` (offset, size) into a
  memory list shared by all arguments.
* **FFT.** `Model/FFT.lean` models the wrapper of the library (choice of real or complex transform, half/full layout,
  scaling, shifts, bin/frequency maps) on top of the *exact* discrete Fourier transform of `Spec/Dft.lean`; the
  overlap-add pipeline (C15) is proved through that wrapper for real, complex and mixed operands. The bundled
  PocketFFT is modelled pass by pass (`Model/Pocket*.lean`) in exact arithmetic, with exact trigonometric constants (C77
  bounds the literals), and proved to compute that transform for every length (C76, C78), which justifies the wrapper.
* **Eigen** (least squares FIR design) is a parameter: a solver function. Only the optimality clause of C51
  assumes that it returns a least squares solution.
* **Loops** are folds, counted loops with state (`forN`), structural recursion, or `whileN` with a budget: running
  out of budget is `ub`, so every theorem with outcome `ok` includes termination for budgets above the
  stated bound.
* **Templates.** Time/frequency tags of signals (`eSignalDomain`), const/non-const pairs, SFINAE constraints
  and forwarding overloads are erased: one definition stands for all instances of a template that differ
  only in them.

## Trusted base

1. The kernel of Lean 4.33.0 (Mathlib is re-checked by it like everything else).
2. Axioms: every theorem depends on at most `propext`, `Classical.choice` and `Quot.sound`; none is added here
   and no compiled evaluation is used (`decide +kernel` is kernel evaluation).
3. The faithfulness of the definitions in `Model/` to the cited lines. It was established by reading; the C++
   code was neither built nor run.

### Modelled

`Math/Rational.hpp`, `Utility/Interval.hpp`, `Kernels/Numeric.hpp`, `Kernels/Functors.hpp` (compensated operators),
`Kernels/Convolution.hpp`, `Math/{Convolution,OverlapAdd,DotProduct,Statistics,Polynomials,RootTransforms,Solvers,
Functions,FFT,EllipticFunctions}.hpp`, `Primitives/{Signal,SignalView,SignalArithmetic}.hpp`, `Generators/{Spaces,Waveforms}.hpp`,
`Filtering/{Polyphase,Resample,Windowing,FilterUtility,MeasureFilter}.hpp`, `Filtering/FIR.hpp` and
`Filtering/FIR/{Descs,Filter,BandTransforms,Windowed,LeastSquares}.hpp`, `Filtering/IIR.hpp` and
`Filtering/IIR/{Descs,Filter,Realizations,BandTransforms,Butterworth,Chebyshev,Elliptic}.hpp`,
`LTISystems/{Systems,DiscretizationTransforms}.hpp`; of `PocketFFT/pocketfft_hdronly.h` the transforms of
one-dimensional complex and real arrays (`Model/PocketFFT`, `Model/PocketBlue`, `Model/PocketReal`) and the shared cache of plans (`Model/PlanCache`).

### Not modelled

Eigen, xsimd and the C++ standard library themselves; of PocketFFT the trigonometric and multi-dimensional transforms, vectorisation over several arrays and worker threads (dspbb uses none of these); floating point rounding (except C08-C10, C58, C73, C74, C81, C83, C86, C88-C91, the cutoffs of C92, C93-C101); `Utility/TypeTraits.hpp`,
`Primitives/SignalTraits.hpp` and everything else decided at compile time; the polymorphic wrappers of
`Math/Functions.hpp` beyond "apply this scalar function to every element"; `Kernels/Math.hpp` (dispatch from a scalar function
to its SIMD namesake: a lane operation is *assumed* to be its scalar function, this is the meaning of `W` lanes
above); stream output operators; allocation
failure.

## Per-property plan

| Id | Model | Proof |
|----|-------|-------|
| C01 | `Rational` ops over checked ints | case analysis with gcd/coprimality lemmas; induction over expression trees |
| C02 | same | value in ℚ, `field_simp` |
| C03 | same | cross multiplication by lcm |
| C04 | same | true for non-negative numerators; negation for negative ones |
| C05 | same | range bounds on lcm/gcd products |
| C06, C07 | `Interval` over ℤ | `omega`; `==` is wrong: negation |
| C08 | `Transform` with blocks of `W` | loop invariant |
| C09–C11 | `Reduce`, `TransformReduce`, `InnerProduct`, compensated ops | free magma (tree) evaluation; permutation of leaves; ring specialisation |
| C12–C14 | four kernels and the dispatcher | loop invariants; output = spec sum; no `ub` |
| C15, C16 | `OverlapAdd` | circular = linear convolution when the chunk is large enough; tiling of the output interval; calculus for Newton iterates |
| C17–C19 | stateful FIR | refinement to the "infinite history" filter |
| C20–C23 | direct forms, cascade | state = history invariant; induction over the input list |
| C24–C27 | polynomials, zpk, cascade | products over roots; list permutation under sort/partition |
| C28–C29 | polyphase | div/mod arithmetic |
| C30–C34 | resampling | index arithmetic, sums over residue classes |
| C35–C37 | FFT wrapper over the exact DFT | orthogonality of roots of unity; parity case analysis |
| C38–C40 | containers, views, arithmetic | list and shared-memory lemmas |
| C41–C44 | statistics | finite sums, Cauchy–Schwarz |
| C45–C47 | generators, windows | real analysis on closed forms |
| C48–C51 | FIR design | polynomial identities, index reflection, loop invariants |
| C52 | descriptors | decision logic over extended reals with NaN |
| C53–C54 | measuring | recursion with decreasing measure; loop invariants |
| C55–C57 | IIR design | complex analysis on closed forms |
| C58–C60 | solvers, powers of two, root transforms | loop invariants |
| C61 | `DesignFilter` for IIR methods, end to end | composition of C55–C57 |
| C62, C63 | Chebyshev prototypes | Chebyshev polynomials on products over roots |
| C64 | element-wise functions | instance of C08 |
| C65 | least squares target responses | piecewise smoothstep analysis, composed with C51 |
| C66 | windowed FIR design of any response | exact inverse DFT of a Hermitian spectrum, aliasing of the two halves |
| C67 | `FrequencyResponse` | DFT bins are samples of the transfer function |
| C68 | Dolph-Chebyshev window | two polynomials of degree < n agreeing at n roots of unity |
| C69 | `CarlsonRF` | duplication theorem by substitution, Taylor remainder of the symmetric integral |
| C70 | `EllipticK`, `EllipticArcSN/ArcCN/ArcDN` | change of variables from Carlson's to Legendre's form |
| C71 | `EllipticAM`, `EllipticSNCNDN` real and complex | Landen's transformation by equal derivatives, quadratic convergence of the AGM, periodicity of F |
| C72 | `EllipticOrderRipples`, `Elliptic`; `Spec/EllipticFilter` (degree equation, arguments of the poles, precision that suffices) | invariant of the bisection, growth bounds of K and K', error propagation through sn |
| C73 | `Sum` ... `Covariance` over an arbitrary arithmetic (`Model/RoundedStatistics`), `Spec/FloatArith`, a concrete binary format | error of any reduction tree by induction over the tree; quotient and root lemmas; two-pass variance identity |
| C74 | the convolution kernels of C12 over an arbitrary arithmetic with fused or separate multiply-add | lane-wise description of the reducing kernel without ring laws; Kahan invariant; error chains of the sliding kernel |
| C75 | the same, and `EllipticResponse` (`Spec/EllipticFilter`): pass band, stop band, transition band and equiripple points | transformation of degree n of the elliptic functions (Jacobi): the products over the grid of `i K/n`, their polynomial identities, Wronskian and multiplier; the poles as roots of the characteristic polynomial; uniform continuity of the response in the parameters (compactness) |
| C76 | PocketFFT complex transforms: twiddles, passes 2, 3, 4, 5, 7, 8, 11, generic, plan, Bluestein, dispatch | every pass fills its output with the butterfly sums (frame lemmas over lists with bounds-checked access); decimation invariant over the factors; Bluestein's identity by orthogonality of roots of unity |
| C77 | `sincos_2pibyn`, `factorize`, `good_size_*`, `largest_prime_factor` | octant case analysis and angle addition; loop invariants; staircase search; the literals: the power of each is computed in Gaussian integers by the kernel, and a number whose `n`-th power is nearly one and which is roughly right is very near the root of unity |
| C78 | `rfftp` (`radf2`…`radf5`, `radfg`, `radb2`…`radbg`), `fftblue::exec_r`, `pocketfft_r`, `r2c`, `c2r` on arrays with every index checked | rows in the packed order `r0 r1 i1 …` stand for Hermitian spectra; each pass is proved to map rows to rows (every cell written exactly from the right inputs), then induction over the factors |
| C79 | `get_plan` (the shared plan cache with its mutex) as a transition system: any number of threads, one transition per access of shared data, arbitrary interleaving | inductive invariant over all reachable states (mutual exclusion, what each program point knows about the cache and the time stamps); a history variable records the uses, against which the time stamps are shown to be a least-recently-used order; a rank that decreases with each step bounds the steps of a call |
| C80 | `FitLoss` on the error function (`Model/FitLoss`, `Spec/Fit`) | derivative of the sum of squares; mirror symmetry |
| C81 | `Rational` → floating point with a rounding function | products of (1 + δ); monotonicity of binary rounding |
| C82 | difference equation of the realizations, FIR output | factorisation over ℂ into one-pole recursions, induction over the poles (sup norm; deviation from `c zⁿ` bounded by `C rⁿ`); power series for uniqueness and for the converse |
| C83 | the realizations of C20–C22 over an arbitrary rounded arithmetic | a step leaves a residual in the difference equation proportional to u times the signal level (induction over the dot product); the residual is an input of the pure recursive part, whose gain is finite (C82); the signal level is bounded at the same time (bootstrapping in the invariant of the loop); sections one after the other |
| C84 | the designs of C61 with the prototypes of C55, C62, C63, C75; `Spec/IirBands` says what each band type passes | the frequency maps as quotients whose numerator plus/minus denominator factor into sines of half sums and differences; rejected frequencies by continuity of the response and isolated zeros of the denominator |
| C85 | the functions of C28-C34 on real and complex samples | orthogonality of roots of unity (comb), folding of sums over residues, C31/C32 for the taps, concavity for the linear interpolation error, DFT inversion for the sampling theorem |
| C86 | the direct forms and systems of C20/C21/C82/C83 | the perturbed output satisfies the exact difference equation up to an error proportional to δ times its own size; the finite gain of the exact filter absorbs that error; stability because an unstable filter has no finite gain (C82_unstable); the response by compactness of the unit circle |
| C87 | Model/Ownership.lean: heap of blocks, vectors, pointer views, the special member functions statement by statement; Spec/Ownership.lean: values and histories | Simulation invariant over histories: each block owned by exactly one object, each view is the view of the own block |
| C88 | Model/FirFilter, Model/Resample, Model/ResampleFloat, Model/Polyphase over an arbitrary type with float operations; rounding is Spec/FloatArith | C74 and C73_dotProduct give the error of one convolution / dot product; the slices that interpolation multiplies are identified for any type (Lemmas/ResampleSlices, ResampleFloat), then standard error analysis of the weighted mean; induction over blocks for streaming |
| C89 | Model/PocketFFT (passes over any type) and Model/PocketFloat (twiddle table in two floating point types); rounding is Spec/FloatArith, Spec/FloatFFT | each butterfly is within c h u of the exact one in every format (Lemmas/PocketNear, PocketCores, PocketCoreG); a pass is Lipschitz in its input, so errors add over the passes (Lemmas/PocketFExec); octant reduction and the product of two table entries (Lemmas/PocketFTwiddle) |
| C90 | Model/PocketBlueFloat (fftblue, pocketfft_c and c2c over floating point numbers), Model/PocketFloat | Bluestein's identity (Lemmas/PocketBlue) perturbed: every transform is C89, every chirp product one rounded complex product, and magnitudes are tracked so that nothing overflows (Lemmas/PocketFBlue) |
| C91 | Model/OverlapAdd (unchanged, over any type with addition), Model/OverlapAddFloat (chunk pipeline over floating point numbers) | the loop keeps an arbitrary per-sample invariant (Lemmas/OverlapAddFold); error after c additions <= c (1+u)^c (eps + u S), and at most B chunks hit a sample (Lemmas/OverlapAddRounded); chunk error from C89/C90 (Lemmas/OverlapAddFloat) |
| C92 | Model/Cutoff.lean (helpers with an arbitrary rounding), Model/Resample.lean | relative-error factors for the helpers; every image (w + 2 pi l)/P, l in 1..P-1, lies in the stopband; C85 and C32 for the signal path |
| C93 | Model/SpacesFloat.lean (statements of LinSpace and of the windows over rounded arithmetic) | relative error of each step; the angle is off by a constant number of roundings whatever the index, cosine is 1-Lipschitz |
| C94 | Model/PocketRealFloat.lean (rfftp radix 2-5 passes, both directions, copies and reordering, over rounded arithmetic) | every store of every butterfly is simulated against the exact pass of C78 with an error bound that grows by a fixed factor per radix; the exact result is the spectrum |
| C95 | Model/OverlapAddRealFloat.lean (half-spectrum pipeline over rounded arithmetic); overlapAdd itself is the model of C14-C15 unchanged | error of the product of two approximate half spectra, Hermitian symmetry to pass to full sums, then the generic overlap-add error theorem of C91 |
| C96 | firFeedOla / firStream (Model/FirFilter.lean) with the rounded chunk pipeline of C95 | two calls of C91_overlap_add per block with the error of the first carried as previous contents of the second; induction on the blocks |
| C97 | polyEval over any types, factoredEval with an arbitrary reduction; complex arithmetic with four products and two sums | induction on the coefficients; induction on the tree of multiplications |
| C98 | the in-place loops (mulBy1stOrder, mulBy2ndOrder, expandReals) over any type, expandPairs and expandPolynomial over floating point | a calculus of mixed relative and absolute errors (Near) for one coefficient of one factor; induction over the factors with the magnitude polynomial |
| C99 | Model/FirWindowFloat.lean | the loop is a product of window and rounded sinc; error propagation tap by tap, then the sum and the reciprocal; the mirror image is the same expression |
| C100 | Model/FirWindowFloat.lean | C99 for the low pass, then one rounded negation and, for the middle tap, one rounded addition; the exact taps of the complement sum to zero |
| C101 | Model/FirWindowFloat.lean | the loop multiplies both mirrored taps by the same number; error propagation through pi f, the distance from the centre, the cosine (1-Lipschitz) and two products |

## Disagreements found (the code violates what a user would expect)

Each line names the theorem that exhibits the failure with a concrete witness, or characterises it. Properties
whose full statement is refuted are `partial` in the manifest; the `_partial` theorems say exactly where it holds.

* Rational times a negative integer: assertion in debug builds, a negative denominator in release builds (`C01_negative_factor_never_returns`, `C01_negative_factor_breaks`).
* `floor`/`ceil` of negative non-integers (`C04_negative_wrong`; exact: `C04_floor_iff`, `C04_ceil_iff`).
* `Interval::operator==` (`C07_equality_wrong`; exact: `C07_equality_exact`).
* Rate zero: `Decimate` divides by zero, `Expand` writes past its output (`C30_zero_rate`, `C32_zero_rate`).
* Streaming overlap-add filters refuse one-tap filters and empty blocks (`C17_ola_refuses`).
* Direct form II with a denominator that is not monic (`C21_nonmonic_wrong`; exact: `C21_directFormII_actual`).
* The direct forms align the numerator to the newest sample: they realise z^(N-M) H (stated in C20, C22).
* `CascadedBiquad` loses the gain of a system without roots (`C25_constant_wrong`); `order()` is one too many (`C25_order`).
* `FactoredPolynomial::resize` (`C27_resize_wrong`); its `operator=` does not return a value (`C87_factored_assign_wrong`; would be right otherwise: `C87_factored_repaired`).
* `PolyphaseDecompose` of an empty filter fails its aliasing assertion (`C28_rejects`, `C29_rejects`).
* In-place `Interpolate` leaves outputs that no phase reaches unwritten (`C31_stale_wrong`, `C31_unreached_unwritten`).
* Central resampling/convolution with an empty operand asserts (`C34_central_empty`).
* Appending a signal to itself is undefined (`C38_self_append_undefined`).
* `SignalView::subsignal`'s assertion is bypassed by wrap-around (`C39_subsignal_wraps`).
* Element-wise functions do not compare sizes (`C64_short_output_overruns`).
* `CentralMoment` of order 0 and even orders from 6 (`C42_order_zero_wrong`, `C42_even_wrong`).
* `CorrectedKurtosis` is not the unbiased estimator (formula proved in `C41_correctedKurtosis`).
* `LogSpace` with a base that is not positive (`C45_logSpace_bad_base`).
* Flat top and Gaussian windows of one sample (`C46_flatTop_one`, `C46_gaussian_degenerate`); the flat top window exceeds 1 by 3e-9; Kaiser with negative alpha throws (`C46_kaiser_negative`).
* Sawtooth and PWM at negative phases (`C47_sawtooth_negative_wrong`, `C47_pwm_negative_wrong`); sample rate zero (`C47_zero_rate`).
* `ShiftResponse` into a separate signal leaves the middle tap stale (`C48_shift_separate_wrong`); for even lengths it is not a modulation (`C48_shift_even_wrong`).
* Windowed low pass with cutoff 0, which the descriptor accepts (`C50_lowpass_cutoff_zero_wrong`).
* Least squares: even lengths leave the last tap unwritten (`C51_even_wrong`), a one point grid divides by zero (`C51_one_point_wrong`), the grid is clamped by the wrong function (`C51_grid_wrong`).
* `ExtractFilterBands` of an empty response dereferences the end (`C53_empty_wrong`); the first band may be empty (`C53_empty_first_band`).
* IIR high pass at cutoff 1/2 and band pass of width 1/2 — the defaults of the descriptors — divide by zero (`C57_highpass_half`, `C57_bandpass_half`, `C61_highpass_half`, `C61_bandpass_half`).
* `MapZDomain` with more zeros than poles: exponent underflow (`C57_more_zeros_wrong`).
* Exact bisection with tolerance 0 does not end (`C58_exact_never_ends`): it ends only thanks to rounding.
* Chebyshev I prototypes of order 0 or above 32: shift out of range (`C62_unsupported_wrong`).
* Chebyshev II with negative ripple is unstable (`C63_negative_ripple_wrong`); ripples of IIR descriptors are not validated.
* Least squares low pass with zero-width transition is inverted (`C65_zero_width_wrong`); the default Hilbert description throws (`C65_hilbert_default_wrong`) and ignores the grid (`C65_hilbert_grid_wrong`).
* Windowed design of an arbitrary response samples the response at 2k/(n-1) instead of 2k/n (`C66_grid_wrong`).
* `FrequencyResponse` of an empty impulse response: size wraps around (`C67_empty_wrong`).
* Dolph-Chebyshev window of one sample divides by zero (`C68_one_wrong`).
* `EllipticArcSN` and `EllipticArcCN` ignore the sign of their argument (`C70_sign_wrong`, `C70_sign_right`).
* `EllipticSNCNDN` with a modulus above one: cn and dn not exchanged (`C71_large_modulus_wrong`), not a number for larger arguments (`C71_large_argument_wrong`).
* Found by reading, outside the model (templates that do not instantiate): `plus_compensated<T>`'s ternary form and the in-place IIR `DesignFilter` wrapper do not compile.
