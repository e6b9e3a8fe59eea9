{"id": "C01", "title": "Rational numbers stay in canonical form", "statement": "Every Rational produced by construction or by an arithmetic operation (binary, mixed with integers, compound, increment/decrement) has a positive denominator coprime to its numerator.", "quantifier": "all numerators, denominators, and finite sequences of operations", "why_tests_cant": "The space of integer pairs and operation sequences is unbounded; sign/gcd corner cases appear only for particular combinations.", "anchors": ["include/dspbb/Math/Rational.hpp: Rational::Rational, operator+,-,*,/,++,--,+=,-=,*=,/="]}
{"id": "C02", "title": "Rational arithmetic is exact", "statement": "a+b, a-b, a*b, a/b (rational or integer right-hand and left-hand sides) denote exactly the mathematical sum, difference, product and quotient; a/b is refused exactly when b is zero.", "quantifier": "all pairs of rationals / integers", "why_tests_cant": "Must hold for all operand pairs; gcd cancellation makes failures input-specific.", "anchors": ["include/dspbb/Math/Rational.hpp: operator+,-,*,/"]}
{"id": "C03", "title": "Rational comparisons decide the mathematical order", "statement": "==, !=, <, >, <=, >= between rationals and between rationals and integers agree with the order of the denoted numbers; equality of values is equality of representation.", "quantifier": "all pairs of rationals and integers", "why_tests_cant": "Comparison uses an lcm-based common denominator; correctness is a universal arithmetic statement.", "anchors": ["include/dspbb/Math/Rational.hpp: CommonNumerators, operator==,<,>,<=,>="]}
{"id": "C04", "title": "Rational rounding: floor, ceil, frac", "statement": "floor(r) is the greatest integer <= r, ceil(r) the least integer >= r, and floor(r)+frac(r)=r with 0<=frac(r)<1.", "quantifier": "all rationals, both signs", "why_tests_cant": "C++ integer division truncates toward zero, so the law's truth depends on sign; tests only sample.", "anchors": ["include/dspbb/Math/Rational.hpp: floor, ceil, frac"]}
{"id": "C05", "title": "Rational arithmetic does not overflow on representable half-width operands", "statement": "With an N-bit signed integer type, if all numerators and denominators have magnitude less than 2^(N/2-1), no intermediate result of +,-,*,/ or a comparison leaves the range of the type; and the product of two canonical rationals overflows only when the canonical result itself is not representable.", "quantifier": "all operand pairs within the bound, all widths", "why_tests_cant": "Overflow is undefined behaviour at extreme operands that tests rarely hit.", "anchors": ["include/dspbb/Math/Rational.hpp: operator+,-,*,/"]}
{"id": "C06", "title": "Interval operations have set semantics", "statement": "Two intervals are reported disjoint iff no integer belongs to both; the intersection contains exactly the common points (and is an empty interval when there are none); the encompassing union is the smallest interval containing both; union is that hull exactly when they share a point, and nothing otherwise; translation shifts membership.", "quantifier": "all pairs of well-formed intervals", "why_tests_cant": "Universally quantified over unbounded endpoints including empty and touching intervals.", "anchors": ["include/dspbb/Utility/Interval.hpp: IsDisjoint, Intersection, EncompassingUnion, Union, operator+,-,size"]}
{"id": "C07", "title": "Interval equality is equality of endpoints", "statement": "a == b holds exactly when both endpoints agree, and a != b is its negation.", "quantifier": "all pairs of intervals", "why_tests_cant": "An error in one conjunct is invisible unless the endpoints tested are chosen adversarially.", "anchors": ["include/dspbb/Utility/Interval.hpp: operator==, operator!="]}
{"id": "C08", "title": "Vectorised element-wise transform equals the scalar map", "statement": "Applying a unary or binary element-wise operation to signals writes exactly op applied to corresponding elements at every index, neither reads nor writes outside the ranges, for every length and SIMD register width.", "quantifier": "all lengths, all SIMD widths, all contents, all operations", "why_tests_cant": "Depends on length modulo SIMD width, which varies per machine.", "anchors": ["include/dspbb/Kernels/Numeric.hpp: Transform", "include/dspbb/Kernels/Functors.hpp"]}
{"id": "C09", "title": "Vectorised reduction uses every element exactly once", "statement": "For any combining operation (even a non-associative floating-point one) the reduction result is a parenthesisation of the initial value and every element, each exactly once; for an associative and commutative operation it equals the sequential left fold.", "quantifier": "all lengths, all SIMD widths, all element values, all binary operations", "why_tests_cant": "Unrolled singlet/doublet/quadruplet/octuplet dispatch depends on length bits; tests sample lengths on one SIMD width.", "anchors": ["include/dspbb/Kernels/Numeric.hpp: Reduce, ReduceExplicit, ReduceBatch"]}
{"id": "C10", "title": "Vectorised transform-reduce and inner product are complete", "statement": "Transform-reduce combines the init value with op(x_i) for each i exactly once; inner product combines init with the product of each aligned pair exactly once; over a commutative ring they equal init+sum f(x_i) and init+sum x_i*y_i.", "quantifier": "all lengths, SIMD widths, values and operations", "why_tests_cant": "As for reduction.", "anchors": ["include/dspbb/Kernels/Numeric.hpp: TransformReduce, InnerProduct", "include/dspbb/Math/DotProduct.hpp: DotProduct"]}
{"id": "C11", "title": "Compensated summation is a summation", "statement": "In exact arithmetic the compensated (Kahan) accumulator keeps a zero carry and returns the plain sum; so Sum, Mean and every statistic based on it equal their textbook definition over exact arithmetic.", "quantifier": "all signals, all SIMD widths", "why_tests_cant": "Requires an invariant on the carry over every step.", "anchors": ["include/dspbb/Kernels/Functors.hpp: plus_compensated", "include/dspbb/Kernels/Numeric.hpp"]}
{"id": "C12", "title": "Every convolution kernel computes the convolution sum", "statement": "Writing n output samples at offset o of the convolution of u and v puts sum_i u[i]*v[o+k-i] (over in-range indices) at index k, for all three kernels (sliding, register-reducing, vectorised reducing) and the naive one, with no out-of-range access.", "quantifier": "all lengths of u and v (also 1 and shorter than a SIMD register), all offsets, all output lengths, all SIMD widths", "why_tests_cant": "Padding and unrolling logic depends on lengths modulo widths.", "anchors": ["include/dspbb/Kernels/Convolution.hpp: ConvolutionNaive, ConvolutionSlide, ConvolutionReduce, ConvolutionReduceVec"]}
{"id": "C13", "title": "Convolution accumulate mode adds to the previous content", "statement": "When asked not to clear the output, every convolution kernel leaves previous output content plus the convolution sum; when asked to clear, the previous content does not matter.", "quantifier": "all buffers, lengths, offsets", "why_tests_cant": "State-dependent: stale output content must be irrelevant or fully preserved.", "anchors": ["include/dspbb/Kernels/Convolution.hpp", "include/dspbb/Math/Convolution.hpp: Convolution(out,u,v,offset,clearOut)"]}
{"id": "C14", "title": "Full and central convolution lengths, contents and symmetry", "statement": "Full convolution has length m+n-1 and central convolution max-min+1; central output is the contiguous part of the full output for which the shorter operand fully overlaps; convolution does not depend on operand order; kernel selection by size is unobservable; a requested range beyond the full length is rejected.", "quantifier": "all non-empty u, v", "why_tests_cant": "Algebraic law over all sizes, across the kernel-selection threshold.", "anchors": ["include/dspbb/Math/Convolution.hpp: ConvolutionLength, Convolution"]}
{"id": "C15", "title": "Overlap-add equals direct convolution", "statement": "Overlap-add convolution writes the same samples as direct convolution for every offset, output length and legal chunk size, given that FFT/IFFT diagonalise circular convolution.", "quantifier": "all lengths, offsets, chunk sizes >= 2*min-1", "why_tests_cant": "Chunk boundary arithmetic must be right for every alignment of offset, length and chunk size.", "anchors": ["include/dspbb/Math/OverlapAdd.hpp: OverlapAdd"]}
{"id": "C16", "title": "Automatically chosen overlap-add chunk is legal", "statement": "The chunk size selected automatically is always at least 2F-1 for the shorter length F, so the automatic overload never violates its own precondition.", "quantifier": "all lengths >= 1", "why_tests_cant": "Selected by a Newton iteration; legality must be proven for all filter and signal sizes.", "anchors": ["include/dspbb/Math/OverlapAdd.hpp: OptimalTheoreticalSize, OptimalPracticalSize"]}
{"id": "C17", "title": "Stateful FIR filtering of chunks equals filtering the whole signal", "statement": "Splitting an input into arbitrary chunks and filtering them one after another with the same state gives the concatenation of outputs that filtering the whole signal at once gives, both for the direct and the overlap-add variants, starting from any state.", "quantifier": "all filters, signals, all partitions into chunks including chunks shorter than the state", "why_tests_cant": "History-dependent: quantifies over all chunkings.", "anchors": ["include/dspbb/Filtering/FIR/Filter.hpp: Filter, ShiftFilterState"]}
{"id": "C18", "title": "The FIR state remembers exactly the most recent inputs", "statement": "After a stateful FIR filter call, the state holds the last F-1 samples of (old state followed by new input).", "quantifier": "all states and inputs of any relative length", "why_tests_cant": "History-dependent.", "anchors": ["include/dspbb/Filtering/FIR/Filter.hpp: ShiftFilterState"]}
{"id": "C19", "title": "Stateless FIR filter outputs are the convolution", "statement": "One-shot FIR filtering returns full or central convolution of signal and filter with the documented length.", "quantifier": "all signals and filters", "why_tests_cant": "Universal in contents and lengths.", "anchors": ["include/dspbb/Filtering/FIR/Filter.hpp: Filter"]}
{"id": "C20", "title": "Direct form I realises the difference equation", "statement": "Feeding samples into a direct form I filter yields the outputs of sum a_k y[n-k] = sum b_k x[n-k] with zero initial history, for any nonzero leading denominator coefficient.", "quantifier": "all coefficient vectors, all input sequences", "why_tests_cant": "History-dependent, unbounded input length.", "anchors": ["include/dspbb/Filtering/IIR/Realizations.hpp: DirectFormI"]}
{"id": "C21", "title": "Direct form II realises the difference equation", "statement": "Feeding samples into a direct form II filter yields the same outputs as the difference equation of its transfer function, for any nonzero leading denominator coefficient.", "quantifier": "all coefficient vectors, all input sequences", "why_tests_cant": "History-dependent; normalisation errors are invisible for monic denominators.", "anchors": ["include/dspbb/Filtering/IIR/Realizations.hpp: DirectFormII"]}
{"id": "C22", "title": "Cascaded form realises the composition of its sections", "statement": "Feeding samples into the cascaded form yields the output of the biquad sections applied one after the other, each obeying its own difference equation, and (for monic sections) each input sequence gives the composition of section filters.", "quantifier": "all cascades and input sequences", "why_tests_cant": "History-dependent.", "anchors": ["include/dspbb/Filtering/IIR/Realizations.hpp: CascadedForm"]}
{"id": "C23", "title": "IIR filtering is chunk-invariant and resettable", "statement": "For each realisation, filtering a signal in arbitrary chunks with the same state object equals filtering it whole, and resetting the state makes future outputs independent of the past.", "quantifier": "all filters, signals, chunkings, histories", "why_tests_cant": "Quantifies over all chunkings and histories.", "anchors": ["include/dspbb/Filtering/IIR/Filter.hpp: Filter", "include/dspbb/Filtering/IIR/Realizations.hpp: Reset, Order"]}
{"id": "C24", "title": "Transfer function and zero-pole-gain representation agree", "statement": "Expanding a zero/pole/gain system to numerator/denominator polynomials preserves the value of the system at every complex point where defined.", "quantifier": "all root sets closed under conjugation, all evaluation points", "why_tests_cant": "Polynomial identity over all inputs.", "anchors": ["include/dspbb/LTISystems/Systems.hpp: TransferFunction", "include/dspbb/Math/Polynomials.hpp: ExpandPolynomial"]}
{"id": "C25", "title": "Cascaded biquad and zero-pole-gain representation agree", "statement": "Splitting a zero/pole/gain system into second order sections preserves the value of the system at every complex point where defined, including its gain.", "quantifier": "all systems, all evaluation points", "why_tests_cant": "Polynomial identity for all root counts and multiplicities.", "anchors": ["include/dspbb/LTISystems/Systems.hpp: CascadedBiquad"]}
{"id": "C26", "title": "Factored polynomials represent exactly the roots they were given", "statement": "Constructing from a list of complex roots either rejects the list (non-conjugate or odd number of complex roots) or yields a polynomial with exactly those roots, whose evaluation is the product of (x - root).", "quantifier": "all root lists", "why_tests_cant": "Universal over lists and orders of roots.", "anchors": ["include/dspbb/Math/Polynomials.hpp: FactoredPolynomial"]}
{"id": "C27", "title": "Changing the root layout of a factored polynomial keeps the roots", "statement": "Changing the numbers of real roots and pairs (resize) or exchanging reals for pairs (regroup) keeps the leading real roots and leading pairs that fit and fills the new places with the given values; regroup keeps the number of roots and throws exactly when that is impossible.", "quantifier": "all layouts (numbers of real roots and pairs)", "why_tests_cant": "Overlapping move semantics are size dependent.", "anchors": ["include/dspbb/Math/Polynomials.hpp: resize, regroup"]}
{"id": "C28", "title": "Polyphase views partition the filter", "statement": "The sub-signals of an n-phase view are disjoint, contiguous and cover the whole buffer; sizes differ by at most one and are non-increasing in phase.", "quantifier": "all buffer lengths and phase counts", "why_tests_cant": "Division/modulo arithmetic over all sizes.", "anchors": ["include/dspbb/Filtering/Polyphase.hpp: PolyphaseView"]}
{"id": "C29", "title": "Polyphase decomposition contains every tap once", "statement": "Sub-filter p of the decomposition holds, reversed and scaled by the number of phases, the taps p, p+n, p+2n, ...; normalisation makes every phase sum to one.", "quantifier": "all filters and phase counts", "why_tests_cant": "All sizes.", "anchors": ["include/dspbb/Filtering/Polyphase.hpp: PolyphaseDecompose, PolyphaseNormalize"]}
{"id": "C30", "title": "Decimation and expansion", "statement": "Decimation by r yields x[0],x[r],x[2r],...; expansion by r yields input samples separated by r-1 zeros; decimating an expanded signal by the same rate returns it; size mismatches are rejected.", "quantifier": "all signals and rates", "why_tests_cant": "All sizes.", "anchors": ["include/dspbb/Filtering/Resample.hpp: Decimate, Expand"]}
{"id": "C31", "title": "Polyphase interpolation equals zero-stuffing plus filtering", "statement": "Interpolating with a polyphase filter yields, on the requested range, the convolution of the zero-stuffed input with the scaled prototype filter, and every output sample in the requested range is written.", "quantifier": "all inputs, filters, phase counts, offsets, output lengths", "why_tests_cant": "Index arithmetic across phases and edges.", "anchors": ["include/dspbb/Filtering/Resample.hpp: Interpolate, InterpolLength"]}
{"id": "C32", "title": "Resampling equals linear interpolation between polyphase outputs", "statement": "Each resampled output is the linear interpolation, at the requested rational position, of the two neighbouring samples of the interpolated signal.", "quantifier": "all inputs, filters, rational rates and start points", "why_tests_cant": "Rational index arithmetic, all rates.", "anchors": ["include/dspbb/Filtering/Resample.hpp: Resample, InputIndex2Sample, DotProductSample"]}
{"id": "C33", "title": "Streaming interpolation/resampling via suspension point is seamless", "statement": "Continuing from the reported suspension point, dropping the reported number of consumed input samples, produces exactly the samples that a single call would have produced next.", "quantifier": "all inputs, splits, rates and filters", "why_tests_cant": "History dependent; all splits.", "anchors": ["include/dspbb/Filtering/Resample.hpp: FindInterpolSuspensionPoint, FindResampleSuspensionPoint"]}
{"id": "C34", "title": "Advertised resampling lengths are safe", "statement": "Producing as many outputs as the length functions advertise never reads outside the input or filter; output positions stay within the interpolated signal.", "quantifier": "all sizes and rates", "why_tests_cant": "Rounding over rationals.", "anchors": ["include/dspbb/Filtering/Resample.hpp: InterpolLength, ResampleLength, ResampleDelay"]}
{"id": "C35", "title": "The full real spectrum is conjugate symmetric", "statement": "The full-size spectrum of a real signal has X[n-k] = conj X[k] for all k and agrees with the half spectrum on its first half, for odd and even n.", "quantifier": "all lengths", "why_tests_cant": "Index arithmetic depends on parity.", "anchors": ["include/dspbb/Math/FFT.hpp: impl::Fft, Ifft"]}
{"id": "C36", "title": "FftShift and IfftShift are mutually inverse rotations", "statement": "FftShift rotates the zero bin to index n/2, IfftShift undoes it exactly, for odd and even lengths, and both are permutations.", "quantifier": "all lengths and contents", "why_tests_cant": "Parity-dependent.", "anchors": ["include/dspbb/Math/FFT.hpp: FftShift, IfftShift, BasicShift"]}
{"id": "C37", "title": "Frequency/bin conversion round trips", "statement": "Converting a bin to a frequency and back yields the original bin for every FFT size and sample rate.", "quantifier": "all bins, sizes, rates", "why_tests_cant": "Universal.", "anchors": ["include/dspbb/Math/FFT.hpp: FourierBin2Frequency, FourierFrequency2Bin"]}
{"id": "C38", "title": "Signals behave as sequences under editing", "statement": "append, prepend, push_back, insert, erase, extract_front/extract_back, resize act as the corresponding list operations; extract returns the removed part; prepend after extract_front restores the original.", "quantifier": "all signals and operation sequences", "why_tests_cant": "Histories of edits are unbounded.", "anchors": ["include/dspbb/Primitives/Signal.hpp"]}
{"id": "C39", "title": "Views address the intended elements", "statement": "subsignal(offset,size), first(n), last(n) of a view denote the expected contiguous elements; composition of views adds offsets; writes through a view change only the viewed elements.", "quantifier": "all views, offsets and sizes", "why_tests_cant": "Universal.", "anchors": ["include/dspbb/Primitives/SignalView.hpp"]}
{"id": "C40", "title": "Signal arithmetic is element-wise and refuses size mismatches", "statement": "Adding, subtracting, multiplying or dividing two signals throws iff sizes differ, otherwise computes each element from the corresponding elements; in-place operators equal the out-of-place ones.", "quantifier": "all signals and sizes", "why_tests_cant": "Universal.", "anchors": ["include/dspbb/Primitives/SignalArithmetic.hpp"]}
{"id": "C41", "title": "Moments, variance and derived statistics match their definitions", "statement": "Mean, mean square, RMS^2, variance, standard deviation, covariance satisfy their definitions over exact arithmetic, variance = mean square - mean^2, and is translation invariant and scales quadratically.", "quantifier": "all non-empty signals", "why_tests_cant": "Universal algebra.", "anchors": ["include/dspbb/Math/Statistics.hpp"]}
{"id": "C42", "title": "Central moment of order k is the mean of k-th powers of deviations", "statement": "CentralMoment(signal,k) equals (1/n) sum (x_i-mean)^k for every k.", "quantifier": "all signals and all k", "why_tests_cant": "k unbounded.", "anchors": ["include/dspbb/Math/Statistics.hpp: CentralMoment"]}
{"id": "C43", "title": "Correlation is bounded", "statement": "Correlation of two signals lies in [-1,1], is symmetric, and is 1 for a signal with itself when non-constant.", "quantifier": "all equal-length signals with non-zero variance", "why_tests_cant": "Cauchy-Schwarz over unbounded length.", "anchors": ["include/dspbb/Math/Statistics.hpp: Covariance, Correlation"]}
{"id": "C44", "title": "Max and Min return an attained extreme", "statement": "Max/Min return an element of the signal not smaller/greater than any other.", "quantifier": "all non-empty signals", "why_tests_cant": "Universal.", "anchors": ["include/dspbb/Math/Statistics.hpp: Max, Min"]}
{"id": "C45", "title": "LinSpace hits its endpoints with uniform spacing", "statement": "LinSpace starts at start, has uniform step, ends at end iff inclusive (else one step before), for all counts >=1.", "quantifier": "all counts and endpoints", "why_tests_cant": "Universal.", "anchors": ["include/dspbb/Generators/Spaces.hpp: LinSpace, LogSpace"]}
{"id": "C46", "title": "Windows are symmetric and bounded", "statement": "Each symmetric window (rectangular, triangular, Hamming, Blackman, Blackman-Harris, flat-top, Gaussian, Kaiser-type, Lanczos) satisfies w[i]=w[n-1-i], and its values stay within the documented range.", "quantifier": "all lengths", "why_tests_cant": "Universal in length.", "anchors": ["include/dspbb/Filtering/Windowing.hpp"]}
{"id": "C47", "title": "Generated waveforms stay in range and are periodic", "statement": "Sine/sawtooth/triangle/PWM/square samples lie in [-1,1] and the waveform is periodic in the phase.", "quantifier": "all frequencies, phases, sample rates and lengths", "why_tests_cant": "Continuous parameters.", "anchors": ["include/dspbb/Generators/Waveforms.hpp"]}
{"id": "C48", "title": "FIR spectral inversion and modulation have the documented response", "statement": "Mirroring a filter negates odd taps so its response is H(pi-w) up to sign; the complementary filter's response sums with the original to a pure delay; both are involutions.", "quantifier": "all filters of legal length", "why_tests_cant": "Universal identity on polynomials.", "anchors": ["include/dspbb/Filtering/FIR/BandTransforms.hpp: MirrorResponse, ComplementaryResponse, ShiftResponse"]}
{"id": "C49", "title": "Half-band to Hilbert conversion yields an antisymmetric filter", "statement": "Converting a symmetric half-band lowpass to a Hilbert filter yields an antisymmetric impulse response in both odd and even cases, independent of the internal block-wise processing.", "quantifier": "all filter lengths", "why_tests_cant": "Block processing (32-periodic kernel) alignment for all lengths.", "anchors": ["include/dspbb/Filtering/FIR/BandTransforms.hpp: HalfbandToHilbertOdd, HalfbandToHilbertEven"]}
{"id": "C50", "title": "Windowed lowpass design is symmetric with unit DC gain", "statement": "The windowed lowpass kernel sums to one and is symmetric for symmetric windows.", "quantifier": "all lengths, cutoffs and windows with nonzero sum", "why_tests_cant": "Universal.", "anchors": ["include/dspbb/Filtering/FIR/Windowed.hpp: KernelWindowedLowpass"]}
{"id": "C51", "title": "Least-squares design is linear phase and fully written", "statement": "The least-squares kernel writes every tap and the result is symmetric.", "quantifier": "all odd and even lengths", "why_tests_cant": "Parity-dependent index arithmetic.", "anchors": ["include/dspbb/Filtering/FIR/LeastSquares.hpp: KernelLeastSquares"]}
{"id": "C52", "title": "Filter descriptors reject invalid bands", "statement": "Setting band edges succeeds iff every edge is in [0,1] (or the documented open range) and the edges are sorted; otherwise an exception is thrown.", "quantifier": "all reals including NaN, all band counts", "why_tests_cant": "Universal.", "anchors": ["include/dspbb/Filtering/FilterUtility.hpp", "include/dspbb/Filtering/FIR/Descs.hpp", "include/dspbb/Filtering/IIR/Descs.hpp"]}
{"id": "C53", "title": "Band extraction covers the response and bands alternate", "statement": "On every nonempty response, band extraction returns the segmentation of a Schmitt trigger with thresholds threshold +- noise: bands start at 0, cover the axis in order and alternate between pass and stop. MeasureLowpass/Highpass/Bandpass/BandstopFilter throws exactly when the sequence of flags is not its pattern; otherwise the returned edges are ordered, lie in [0, 1], enclose the start of the band they separate, and the ripples are the largest deviations at the local extrema of each band. MeasureFilter returns the measurement of the one class whose pattern the flags have.", "quantifier": "all responses and thresholds", "why_tests_cant": "Unbounded responses.", "anchors": ["include/dspbb/Filtering/MeasureFilter.hpp: ExtractFilterBands, HasBands, Measure*"]}
{"id": "C54", "title": "Ripple search terminates", "statement": "The extremum search returns the first centre of a five-sample window that no sample of the window exceeds, strictly advances, so ripple measurement terminates on every response, reads only in-range samples, and returns the largest deviation over all local extrema.", "quantifier": "all responses", "why_tests_cant": "Termination for all inputs.", "anchors": ["include/dspbb/Filtering/MeasureFilter.hpp: FindFirstExtremum, MeasureBandRipple"]}
{"id": "C55", "title": "Butterworth prototype is stable, conjugate-closed and maximally flat", "statement": "The n-th order analog Butterworth prototype has all poles in the open left half plane, closed under conjugation, on the unit circle, and |H(jw)|^2 = 1/(1+w^(2n)).", "quantifier": "all orders and frequencies", "why_tests_cant": "Universal in order.", "anchors": ["include/dspbb/Filtering/IIR/Butterworth.hpp: Butterworth"]}
{"id": "C56", "title": "Bilinear transform preserves stability and frequency response", "statement": "Discretising maps left-half-plane poles inside the unit circle, keeps conjugate pairs, gives equal numbers of zeros and poles, and the discrete response at exp(jw) equals the continuous response at the (pre-)warped frequency; with prewarping the match frequency is exact.", "quantifier": "all systems, sample rates, prewarp frequencies", "why_tests_cant": "Continuous parameters.", "anchors": ["include/dspbb/LTISystems/DiscretizationTransforms.hpp: BilinearTransform"]}
{"id": "C57", "title": "IIR band transforms preserve response under frequency mapping", "statement": "Mapping a half-band discrete system with the first or second order all-pass substitution yields a system whose value at z equals the original's value at the mapped point; stable systems stay stable.", "quantifier": "all systems and band edges", "why_tests_cant": "Rational function identities.", "anchors": ["include/dspbb/Filtering/IIR/BandTransforms.hpp", "include/dspbb/Math/RootTransforms.hpp"]}
{"id": "C58", "title": "Root finding by bisection keeps a bracket", "statement": "Bisection returns a point of the original interval and keeps a sign change bracketed whatever the rounding of the midpoint, terminates on every finite number type, and in exact arithmetic with positive tolerance returns a point within half the tolerance of a root of a continuous function; Newton-Raphson fixes exact roots, solves affine equations, and what it returns is a Newton step that is within tolerance or did not shrink.", "quantifier": "all functions and intervals", "why_tests_cant": "Universal in the function.", "anchors": ["include/dspbb/Math/Solvers.hpp: Bisect, NewtonRaphson"]}
{"id": "C59", "title": "Next power of two", "statement": "The internal FFT-size rounding returns the least power of two not smaller than its argument.", "quantifier": "all sizes", "why_tests_cant": "Universal.", "anchors": ["include/dspbb/Math/OverlapAdd.hpp: NextPowerOfTwo"]}
{"id": "C60", "title": "Root transformation keeps counts and conjugate closure", "statement": "Applying a root transform counts and places roots consistently: the transformed polynomial has exactly the images of the roots plus padding roots.", "quantifier": "all root layouts and transforms that respect conjugation", "why_tests_cant": "Layout-dependent.", "anchors": ["include/dspbb/Math/RootTransforms.hpp: CountTransformedRoots, TransformRoots"]}
{"id": "C61", "title": "Complete IIR designs have the prescribed response and are stable", "statement": "Designing a low-, high-, bandpass or bandstop IIR filter of any order from a stable analog prototype yields a stable filter with the right number of zeros and poles whose frequency response is the prototype's at the warped frequency; a Butterworth filter has magnitude 1/sqrt2 at its cutoff(s).", "quantifier": "all orders, cutoffs, bands, frequencies", "why_tests_cant": "Continuous parameters and unbounded order.", "anchors": ["include/dspbb/Filtering/IIR.hpp: DesignFilter", "include/dspbb/Filtering/IIR/BandTransforms.hpp", "include/dspbb/LTISystems/DiscretizationTransforms.hpp"]}
{"id": "C62", "title": "Chebyshev type I prototype is stable and equiripple", "statement": "The n-th order Chebyshev I prototype has its poles in the open left half plane, closed under conjugation, and |H(jw)|^2 = 1/(1+eps^2 T_n(w)^2), so that the pass band gain stays within [1-ripple, 1].", "quantifier": "all supported orders, ripples and frequencies", "why_tests_cant": "Universal in order and frequency.", "anchors": ["include/dspbb/Filtering/IIR/Chebyshev.hpp: Chebyshev1"]}
{"id": "C63", "title": "Chebyshev type II prototype is stable and bounds the stop band", "statement": "The n-th order Chebyshev II prototype is stable, closed under conjugation, and |H(jw)|^2 = eps^2 T_n(1/w)^2/(1+eps^2 T_n(1/w)^2), so that the stop band gain never exceeds the requested ripple.", "quantifier": "all orders, ripples and frequencies", "why_tests_cant": "Universal in order and frequency.", "anchors": ["include/dspbb/Filtering/IIR/Chebyshev.hpp: Chebyshev2"]}
{"id": "C64", "title": "Element-wise functions act on every element and on nothing else", "statement": "Abs, Log, Exp, Sqrt, Sin, ... and Pow applied to a signal return a signal of the same length whose elements are the function of the argument's elements; the two-argument form overwrites exactly its output, also in place, for every length and vector width. (The two-argument form does not compare the sizes.)", "quantifier": "all signals, lengths, vector widths, aliasing", "why_tests_cant": "Vectorised body and scalar tail interact with the length; overruns only occur for particular lengths.", "anchors": ["include/dspbb/Math/Functions.hpp: DSPBB_IMPL_FUNCTION_1_PARAM, DSPBB_IMPL_FUNCTION_2_PARAM, Pow"]}
{"id": "C65", "title": "Least-squares descriptions ask for the documented response", "statement": "For every description with transitions of positive width, the response given to the least-squares solver is one in the pass bands, zero in the stop bands and monotone in between, low/high pass and band pass/stop add up to one, every frequency gets the weight of the band it lies in, and the complete designs of odd length are the weighted least-squares optimum; the Hilbert transformer is antisymmetric with exact quarter-period phase for every length. (A transition of zero width inverts the low pass; the default Hilbert description is rejected.)", "quantifier": "all band edges, weights, frequencies, odd lengths and grids", "why_tests_cant": "Holds for a continuum of edges and frequencies; degenerate widths are measure zero.", "anchors": ["include/dspbb/Filtering/FIR.hpp: LeastSquaresSplitWeight, LeastSquaresBandWeight, DesignFilter", "include/dspbb/Filtering/FIR/Descs.hpp"]}
{"id": "C66", "title": "Windowed FIR design of an arbitrary response", "statement": "Designing an FIR filter for any response function with a window writes exactly the output, the taps are the window times the filter whose centred frequency response takes the wanted values at the DFT bins (and which is determined by them), a real response with a symmetric window gives exactly linear phase, a window given as a signal - even the output itself - gives the same taps, and even lengths are refused. (The library samples the response at 2k/(n-1) instead of 2k/n.)", "quantifier": "all odd lengths, responses, windows, aliasing", "why_tests_cant": "A statement about every response function and every length.", "anchors": ["include/dspbb/Filtering/FIR.hpp: DesignFilter", "include/dspbb/Filtering/FIR/Windowed.hpp: KernelWindowedArbitrary"]}
{"id": "C67", "title": "Measured frequency response is the response", "statement": "FrequencyResponse of an impulse response returns at every grid point the magnitude and phase of the filter's transfer function at that frequency, that of a discrete system the value of the system on the unit circle, and the two agree for an FIR filter given in both forms.", "quantifier": "all impulse responses, systems and grid sizes", "why_tests_cant": "Holds at every frequency for every filter.", "anchors": ["include/dspbb/Filtering/MeasureFilter.hpp: FrequencyResponse"]}
{"id": "C68", "title": "Dolph-Chebyshev window is equiripple with the requested attenuation", "statement": "For every length of at least two and every attenuation in (0,1] the window is symmetric, has largest magnitude exactly one, its frequency response is a scaled Chebyshev polynomial at every frequency, and from the edge of the main lobe on it never exceeds attenuation times the response at zero, which the edge attains. (The window of one sample divides by zero.)", "quantifier": "all lengths, attenuations and frequencies", "why_tests_cant": "A bound at a continuum of frequencies for every length.", "anchors": ["include/dspbb/Filtering/Windowing.hpp: DolphChebyshevWindow"]}
{"id": "C69", "title": "Carlson's symmetric elliptic integral is computed to the stated accuracy", "statement": "For all nonnegative arguments of which at most one is zero CarlsonRF terminates and its relative error is at most a quarter of the epsilon of the number type; with two zeros it is infinite; for equal arguments it is the inverse square root; the complex version agrees on nonnegative reals.", "quantifier": "all nonnegative arguments", "why_tests_cant": "Accuracy over a continuum of arguments, termination of the duplication loop.", "anchors": ["include/dspbb/Math/EllipticFunctions.hpp: CarlsonRF"]}
{"id": "C70", "title": "Complete and inverse elliptic functions are Legendre's integrals", "statement": "EllipticK(k) is Legendre's complete integral K(k) for every |k| < 1 and infinite at |k| = 1, and EllipticArcSN/ArcCN/ArcDN on [0,1] are F(arcsin x, k), F(arccos x, k) and F(arcsin(sqrt(1-x^2)/k), k), all within relative error epsilon/4. (The inverse of sn and cn ignore the sign of the argument.)", "quantifier": "all moduli and arguments", "why_tests_cant": "Accuracy over a continuum of arguments.", "anchors": ["include/dspbb/Math/EllipticFunctions.hpp: EllipticK, EllipticArcSN, EllipticArcCN, EllipticArcDN"]}
{"id": "C71", "title": "Jacobi's amplitude and elliptic functions are accurate", "statement": "For every modulus in [0,1) that a floating point type can hold, EllipticAM terminates without throwing, is odd, and differs from the amplitude (the inverse of Legendre's integral) by at most epsilon K(k) |x|; EllipticSNCNDN satisfies the Pythagorean relations exactly and differs from sn, cn, dn by at most epsilon K(k) (3 K(k) + |x|) for every argument, modulus one gives the hyperbolic functions, and the complex version is Jacobi's imaginary transformation of the two. (Moduli above one: cn and dn are wrong, and large arguments give no number.)", "quantifier": "all moduli and arguments, real and complex", "why_tests_cant": "Accuracy and termination over a continuum of arguments.", "anchors": ["include/dspbb/Math/EllipticFunctions.hpp: EllipticAM, EllipticReduceRange, EllipticSNCNDN"]}
{"id": "C72", "title": "Elliptic prototype satisfies the degree equation and is stable", "statement": "For every positive order, pass band ripple and lower stop band ripple, in every arithmetic that is fine enough, the elliptic prototype is returned; the modulus found by bisection satisfies the degree equation K(k)/K'(k) = n K(k1)/K'(k1) up to a few epsilons, the zeros lie on the imaginary axis at 1/(k sn) and the poles at i sn of the arguments of the elliptic design (each to within 5 epsilon K^2), all poles are in the left half plane, roots come in conjugate pairs and the gain at zero is 1 or 1 - ripple; the low pass filter designed from it is stable, keeps that gain, and vanishes exactly at the frequencies of the zeros, all beyond the transition band. (A stop band ripple at or above the pass band gives no filter.)", "quantifier": "all orders, ripples, arithmetics, cutoffs and frequencies", "why_tests_cant": "The quantities are transcendental functions of continuous parameters, found by an iterative search.", "anchors": ["include/dspbb/Filtering/IIR/Elliptic.hpp: EllipticOrderRipples, Elliptic", "include/dspbb/Math/Solvers.hpp: Bisect"]}
{"id": "C73", "title": "Floating point statistics stay close to the exact ones", "statement": "Computed in any floating point type whose operations round with relative error u, Sum, Mean, SumSquare, MeanSquare, RootMeanSquare, Norm, DotProduct, Variance, StandardDeviation and Covariance about given means differ from the exact statistic of the samples by at most an explicit multiple of n u times the corresponding sum of magnitudes (plus the explicit effect of underflow), whatever the vectorisation, order and parenthesisation of the reductions; sums of squares and the variance are never negative, and the error of the variance depends on the mean only through the square of the error of the mean.", "quantifier": "all signals without overflow, lengths, formats, vector widths and reduction orders", "why_tests_cant": "Rounding errors depend on every bit of every sample and on the order of summation.", "anchors": ["include/dspbb/Math/Statistics.hpp", "include/dspbb/Math/DotProduct.hpp", "include/dspbb/Kernels/Numeric.hpp: Reduce, TransformReduce, InnerProduct"]}
{"id": "C74", "title": "Floating point convolution has an error independent of the length", "statement": "Computed in any floating point type whose operations round with relative error u (multiply-adds fused or not), every output sample of Convolution - full, central or any part, clearing or accumulating - differs from the exact convolution of the samples by at most 35 u times the convolution of the magnitudes plus twice the underflow threshold per term, for inputs of any length up to 0.4/u and every vector width: short inputs through the sliding kernel, long ones through the compensated reducing kernel.", "quantifier": "all inputs without overflow, lengths, formats, vector widths, offsets", "why_tests_cant": "The accumulated rounding error depends on all samples and on the length.", "anchors": ["include/dspbb/Math/Convolution.hpp: Convolution", "include/dspbb/Kernels/Convolution.hpp: ConvolutionSlide, ConvolutionReduceVec", "include/dspbb/Kernels/Math.hpp: fma", "include/dspbb/Kernels/Functors.hpp: plus_compensated"]}
{"id": "C75", "title": "Elliptic filters have the ripples they are designed for", "statement": "For every positive order n, pass band ripple p and lower stop band ripple s there is exactly one selectivity k that satisfies the degree equation. The filter with the zeros, poles and gain of the elliptic design for it has a magnitude between 1 - p and 1 up to frequency 1, at most s from 1/k on, in between in the transition band, and is equiripple: it touches 1 - p and 1 alternately at the n + 1 frequencies sn(i K/n), and s and 0 alternately at 1/(k sn(i K/n)). The prototype the library computes, and the digital low pass designed from it, have this response up to any given deviation, at all frequencies at once, from some precision of the arithmetic on.", "quantifier": "all orders, ripples, frequencies, deviations, cutoffs, and all arithmetics beyond a precision", "why_tests_cant": "The response is compared at a continuum of frequencies; the bound is a theorem about elliptic functions.", "anchors": ["include/dspbb/Filtering/IIR/Elliptic.hpp: EllipticOrderRipples, Elliptic", "include/dspbb/Filtering/IIR.hpp: DesignFilter"]}
{"id": "C76", "title": "The complex FFT of every length is the discrete Fourier transform", "statement": "For every nonempty array of complex numbers the bundled transform, forward or backward with any factor, stores in the output array exactly the factor times the sums of the discrete Fourier transform of the input, in order; it accesses no array out of bounds, and the result depends neither on the previous content of the output nor on uninitialised memory, nor on whether the mixed-radix plan (radices 2, 3, 4, 5, 7, 8, 11 and the generic pass for larger primes) or Bluestein's plan is chosen; both plans are right for every length. Forward and scaled backward transform are inverse to each other. Length zero throws or does nothing.", "quantifier": "all lengths, inputs, factors, directions, contents of uninitialised memory", "why_tests_cant": "Every length has its own factorisation, and with it its own sequence of passes and index arithmetic.", "anchors": ["include/dspbb/PocketFFT/pocketfft_hdronly.h: cfftp, fftblue, pocketfft_c, c2c", "include/dspbb/Math/FFT.hpp: Fft, Ifft"]}
{"id": "C77", "title": "The FFT's twiddle factors, factorisation and padded lengths are right for every length", "statement": "For every positive length n the twiddle table delivers the exact n-th root of unity for every index, from tables of about the square root of n entries; the factorisation yields factors that multiply to n, each 4, 8 or a prime; good_size_cmplx and good_size_real return the smallest length not below n without prime factors above 11 and 5; largest_prime_factor returns the largest prime factor. The trigonometric literals of the passes are within 1e-33 of the sines and cosines they stand for.", "quantifier": "all lengths", "why_tests_cant": "Number-theoretic claims about every length.", "anchors": ["include/dspbb/PocketFFT/pocketfft_hdronly.h: sincos_2pibyn, cfftp::factorize, util::good_size_cmplx, util::good_size_real, util::largest_prime_factor"]}
{"id": "C78", "title": "The FFT of real data of every length is the half discrete Fourier transform, and its inverse inverts it", "statement": "For every nonempty array of n real numbers r2c stores exactly the factor times the bins 0 to n/2 of the discrete Fourier transform and leaves the rest of the output alone; c2r of n/2+1 bins (more are not read) stores exactly the factor times the inverse sums of the conjugate symmetric spectrum they stand for, for even and odd n, so that the two with factor 1/n give the samples back. No array is accessed out of bounds, and the result depends neither on uninitialised memory nor on whether the mixed-radix plan (radices 2, 3, 4, 5, any odd prime) or Bluestein's algorithm is chosen; the factors of the plan multiply to n, with even factors first. Without input nothing is written.", "quantifier": "all lengths, inputs, factors, contents of uninitialised memory", "why_tests_cant": "Every length has its own factorisation, and with it its own sequence of passes and in-place index arithmetic in the packed order.", "anchors": ["include/dspbb/PocketFFT/pocketfft_hdronly.h: rfftp, fftblue::exec_r, pocketfft_r, general_r2c, general_c2r, r2c, c2r", "include/dspbb/Math/FFT.hpp: Fft, Ifft"]}
{"id": "C79", "title": "FFT plans can be shared by any number of threads", "statement": "Whatever lengths any number of threads transform and however they are scheduled, get_plan(n) hands out a plan that was constructed for n (so every transform is right although its plan may have been built by another thread, replaced in the cache meanwhile, or built twice at the same time); the shared cache is only changed by the one thread holding the lock; it never holds two plans of one length; as long as its 64 bit counter does not overflow it holds exactly the 16 most recently used lengths, so a process using no more than 16 lengths never constructs a plan it has used before; there is no deadlock, and every call ends after at most 58 steps of its own.", "quantifier": "all numbers of threads, sequences of lengths, schedules and preemption points", "why_tests_cant": "Schedules are unbounded and not reproducible in tests.", "anchors": ["include/dspbb/PocketFFT/pocketfft_hdronly.h: get_plan, general_nd, general_r2c, general_c2r"]}
{"id": "C80", "title": "Band edges found by fitting are least squares optima", "statement": "The function whose root the fitted band edge search looks for is, up to a positive factor, the derivative of the sum of squared differences between the samples of the band and an error function edge, with respect to the width of the edge; the search always returns, and if the squared error falls at one end of the search interval and rises at the other, what it returns is next to a stationary point. A right edge is treated as the mirror image of a left one. If the band has an exact error function edge, the edge reported is the one of that shape, up to the resolution of the bisection.", "quantifier": "all bands, peaks, thresholds and widths", "why_tests_cant": "The relation holds at a continuum of parameters and for sums of any length.", "anchors": ["include/dspbb/Filtering/MeasureFilter.hpp: FitLoss, FitBand, FindBandEdgesFit"]}
{"id": "C81", "title": "Conversion of rationals to floating point is accurate", "statement": "In every floating point format (relative rounding error u) the conversion of a rational number of 64 bit integers has a relative error of at most (1+u)^2/(1-u) - 1 < 4u, the right sign, and is zero only for zero; if numerator and denominator are representable it is the correctly rounded value, whatever the rounding mode, and then it preserves the order.", "quantifier": "all rationals, formats and rounding modes", "why_tests_cant": "Rounding behaviour depends on every bit of numerator and denominator.", "anchors": ["include/dspbb/Math/Rational.hpp: explicit operator FloatT"]}
{"id": "C82", "title": "Stable filters: bounded output, vanishing transients, and the predicted steady state", "statement": "If all poles of a transfer function are inside the unit circle, then bounded inputs give bounded outputs with a gain independent of the input; the effect of everything filtered before dies out exponentially, as does the output once the input has ended; and for every sinusoid the output approaches, exponentially and with constants independent of the sinusoid, the sinusoid with amplitude and phase changed by the value of the transfer function on the unit circle (advanced by the difference if there are fewer zeros than poles). All realizations of a designed filter agree on this. With an uncancelled pole on or outside the circle, bounded inputs give unbounded outputs. For FIR filters the steady state is reached exactly once the filter overlaps only the sinusoid.", "quantifier": "all stable (and unstable) transfer functions, inputs of any length, frequencies, amplitudes, phases, histories", "why_tests_cant": "Asymptotic statements over unbounded time and a continuum of frequencies.", "anchors": ["include/dspbb/Filtering/IIR/Realizations.hpp", "include/dspbb/Filtering/IIR/Filter.hpp", "include/dspbb/Filtering/FIR/Filter.hpp", "include/dspbb/LTISystems/Systems.hpp"]}
{"id": "C83", "title": "Recursive filters in floating point: the error does not grow with time", "statement": "For every stable filter there is a constant C, depending on its coefficients only, such that in every floating point format with rounding unit u and underflow threshold t with C (u + t) <= 1, and for every input of any length bounded by X with C (1 + X) within the range of the format, the direct form I, the direct form II (monic denominators) and the cascade of second order sections return finite samples that differ from the exact output by at most C (u X + t (1 + X)), however long they run. The constants are explicit in the coefficients and the gain of the recursive part.", "quantifier": "all stable filters, inputs of any length, formats, rounding modes", "why_tests_cant": "Rounding errors are fed back for ever; no test runs for ever.", "anchors": ["include/dspbb/Filtering/IIR/Realizations.hpp: DirectFormI::feed, DirectFormII::feed, CascadedForm::feed"]}
{"id": "C84", "title": "Every IIR design method with every band type: gain inside and outside of the pass band", "statement": "For Butterworth, Chebyshev I, Chebyshev II and elliptic prototypes of every order (Chebyshev I: up to 32) and ripple, and low pass, high pass, band pass and band stop filters with every cutoff except those for which the library divides by zero (high pass at half the Nyquist frequency, band pass of that width: C61), the designed filter is stable, has as many zeros and poles as its order, and at every frequency from zero to Nyquist inclusive: Butterworth gain^2 >= 1/2 exactly in the pass band, = 1/2 exactly at the cutoffs; Chebyshev I between 1 - ripple and 1 in the pass band, 1 - ripple at the cutoffs, less outside; Chebyshev II at most the ripple outside of the pass band and equal to it at the cutoffs, between ripple and 1 inside; elliptic between 1 - p and 1 in the pass band and at most s from the analog frequency 1/k on, up to a deviation that vanishes with the precision. Filters whose prototype has no zeros reject zero/Nyquist/centre completely. Feeding a sinusoid to any realization, the output approaches the sinusoid scaled by that gain.", "quantifier": "all orders, ripples, cutoffs, band types, frequencies in [0, pi]", "why_tests_cant": "A continuum of frequencies, cutoffs and ripples; the gain at the edges is exact only in exact arithmetic.", "anchors": ["include/dspbb/Filtering/IIR.hpp: DesignFilter", "include/dspbb/Filtering/IIR/BandTransforms.hpp", "include/dspbb/Filtering/IIR/Butterworth.hpp", "include/dspbb/Filtering/IIR/Chebyshev.hpp", "include/dspbb/Filtering/IIR/Elliptic.hpp"]}
{"id": "C85", "title": "Rate changes do to the spectrum what sampling theory says", "statement": "Expand repeats the input's spectrum (bin k of the longer DFT is bin k of the input, modulo its length). Decimate averages the spectrum over the aliasing frequencies; a signal occupying at most M successive bins of its M*r loses nothing when decimated by r, and two such signals with equal decimated samples are equal. Interpolate turns a sinusoid into the sum of its P images, each weighted by the filter's response there; hence the interpolated and the resampled sinusoid (at any rational rate and start) equal the true sinusoid at the new sample positions, late by exactly the delay ResampleDelay reports, up to |A| times (deviation of the centred response from 1 at the frequency + response at the images + (w/P)^2/8 for the linear interpolation). With a normalized polyphase filter a constant resamples to exactly that constant.", "quantifier": "all signals, lengths, rates, start points, filters, numbers of phases, sinusoids (amplitude, frequency, phase) and all output samples where the filter overlaps only the input", "why_tests_cant": "the relation is between entire signals and functions of continuous frequency; a test can compare a few sinusoids for a few filters only", "anchors": ["include/dspbb/Filtering/Resample.hpp: Decimate", "include/dspbb/Filtering/Resample.hpp: Expand", "include/dspbb/Filtering/Resample.hpp: Interpolate", "include/dspbb/Filtering/Resample.hpp: Resample", "include/dspbb/Filtering/Resample.hpp: ResampleDelay", "include/dspbb/Filtering/Polyphase.hpp: PolyphaseDecompose", "include/dspbb/Filtering/Polyphase.hpp: PolyphaseNormalize"]}
{"id": "C86", "title": "A stable recursive filter tolerates inexact coefficients", "statement": "For every stable filter (all poles inside the unit circle) there are a tolerance and a constant such that any filter whose numerator and denominator coefficients differ by at most \u03b4 (\u03b4 below the tolerance) is stable too, its frequency response differs by at most C*\u03b4 at every frequency, and its output differs from the exact filter's by at most C*\u03b4 times the input level at every sample of inputs of any length; the same for the output of a cascade of second order sections. With floating point arithmetic on top (direct forms I and II run on rounded coefficients) the output is finite and within C*(\u03b4 + rounding unit) times the input level of the output of the filter as designed, for ever.", "quantifier": "all stable filters, all perturbed coefficients, all bounded inputs of any length, all floating point formats that satisfy the IEEE 754 bounds, every frequency and every sample", "why_tests_cant": "the quantifier ranges over all perturbations and unbounded running times; a test runs one pair of filters for a finite time", "anchors": ["include/dspbb/Filtering/IIR/Realizations.hpp: DirectFormI", "include/dspbb/Filtering/IIR/Realizations.hpp: DirectFormII", "include/dspbb/Filtering/IIR/Realizations.hpp: CascadedForm", "include/dspbb/LTISystems/Systems.hpp: TransferFunction"]}
{"id": "C87", "title": "Filters and polynomials behave like values under every history of copies, moves and assignments", "statement": "PolyphaseFilter and FactoredPolynomial hold memory together with views into it. For every program that constructs, copies, moves, assigns (also to itself), changes and destroys such objects in any order: nothing is freed twice or used after being freed, every object's views show exactly its own current value (coefficients and phase count, resp. real and complex roots), a change of one object is never seen through another, a moved-from object is empty and usable, and every allocated block belongs to exactly one living object, so nothing is leaked. (For FactoredPolynomial this fails for assignment: operator= ends without a return statement, which is undefined behaviour; proved as a separate theorem, with the corrected version proved to behave like values.)", "quantifier": "all finite histories of constructions, copies, moves, assignments, element writes and destructions over any number of objects, all contents, and every choice std::vector is free to make at each assignment", "why_tests_cant": "The property concerns every interleaving of object operations; a test executes a few, and dangling views often read the old contents by luck.", "anchors": ["include/dspbb/Filtering/Polyphase.hpp: PolyphaseFilter", "include/dspbb/Math/Polynomials.hpp: FactoredPolynomial"]}
{"id": "C88", "title": "FIR filtering, interpolation and resampling in floating point stay close to the exact result, however long the stream", "statement": "In any floating point type: a stateful FIR filter, fed a signal cut into blocks in any way, keeps exactly the last samples as state and returns for every sample the exact filter output up to a fixed multiple of the unit roundoff times the same filter applied to magnitudes; the error does not grow with the length of the stream, and two ways to cut the same signal differ by no more than that. Polyphase decomposition stores each tap times the number of phases up to two roundings. Interpolation returns every sample of the zero-stuffed filtered signal up to the rounding of one dot product as long as one phase, and resampling at any rational rate and starting point returns the exact linear interpolation between neighbouring samples of the oversampled grid up to an explicit bound of the same kind; none of them overflows as long as the magnitudes stay below an explicit limit.", "quantifier": "all signals, filters, phase counts, rates, starting points, block cuttings and lengths, all vector widths and orders of summation, every floating point format and rounding mode", "why_tests_cant": "Tests compare a few signals to a tolerance chosen by hand; they cannot show that a bound holds for every signal and does not drift along an unbounded stream.", "anchors": ["include/dspbb/Filtering/FIR/Filter.hpp: Filter", "include/dspbb/Filtering/Resample.hpp: Interpolate, Resample", "include/dspbb/Filtering/Polyphase.hpp: PolyphaseDecompose"]}
{"id": "C89", "title": "The mixed-radix complex FFT in floating point stays close to the discrete Fourier transform", "statement": "In any floating point type, for every nonempty complex array whose entries have magnitude at most X, the mixed-radix plan, forward or backward, returns finite numbers each within 64 h n Q (u X + tiny) of the exact sum of the discrete Fourier transform, where Q is the sum of the prime factors of the length n (2 log2 n for a power of two), u the unit roundoff and h the accuracy, in units of u, of the twiddle factors and literal constants; a final factor adds two roundings, and forward followed by the scaled backward transform returns the input up to a bound of the same kind. The twiddle table, computed in the wider type from tables of about the square root of n entries, delivers every root of unity of every length with such an accuracy. Nothing overflows while X stays below an explicit limit.", "quantifier": "all lengths, inputs, directions, factors, contents of uninitialised memory, every floating point format and rounding mode, every sine and cosine function accurate to a fixed number of roundings", "why_tests_cant": "Tests compare a few lengths to a tolerance chosen by hand; every length has its own sequence of passes, and the worst case over inputs is never sampled.", "anchors": ["include/dspbb/PocketFFT/pocketfft_hdronly.h: cfftp, sincos_2pibyn", "include/dspbb/Math/FFT.hpp: Fft, Ifft"]}
{"id": "C90", "title": "The complete complex FFT in floating point, including Bluestein's algorithm, stays close to the discrete Fourier transform", "statement": "In any floating point type, for every nonempty complex array whose entries have magnitude at most X, the library's complex transform, forward or backward, by whichever of its two plans the cost comparison selects, returns finite numbers close to the exact sum of the discrete Fourier transform: Bluestein's plan, which pads to a length N with 2n-1 <= N < 4n, errs by at most |f| 560 h (Q+1) N^2 (u X + tiny) + 2 tiny, where Q is the sum of the prime factors of N (at most 4 log2 N, since N has no prime factor above 11), f the final factor, u the unit roundoff and h the accuracy of twiddles and literal constants in units of u. Nothing overflows while X stays below an explicit limit.", "quantifier": "all lengths, inputs, directions, factors, contents of uninitialised memory, every outcome of the cost comparison, every floating point format and rounding mode, every sine and cosine function accurate to a fixed number of roundings", "why_tests_cant": "Only some lengths select Bluestein's plan, and its error goes through two padded transforms and three chirp multiplications; tests compare a few lengths against a tolerance chosen by hand.", "anchors": ["include/dspbb/PocketFFT/pocketfft_hdronly.h: fftblue, pocketfft_c, c2c", "include/dspbb/Math/FFT.hpp: Fft, Ifft"]}
{"id": "C91", "title": "Overlap-add convolution in floating point stays close to the exact convolution, however long the signal", "statement": "In any floating point type, overlap-add of two non-empty complex signals, in either order, full or partial output window, clearing or accumulating, with a given or automatic chunk size K that is at least 2|s|-1 (s the shorter signal), returns normally with finite samples, each within 2 B (eps + u S) of the exact convolution plus the previous contents. B = (K-1)/|s| + 1 is the number of chunks that can overlap one sample, so the bound does not depend on the length of the signal; eps is the error of one chunk (3400 h (Q+1) u K^2 U V for mixed-radix lengths with prime factor sum Q, a corresponding bound with the transform error rho otherwise); S bounds the result. The chunk pipeline transform-multiply-inverse-transform is itself within eps of the circular convolution.", "quantifier": "all signals, lengths, offsets, windows, chunk sizes, previous contents, both argument orders, every floating point format and rounding mode, either FFT plan", "why_tests_cant": "The error of a sample combines the rounding noise of whole chunks, spread over every sample of the chunk, from several transforms; tests compare short signals with a tolerance and cannot show that errors do not accumulate along the stream.", "anchors": ["include/dspbb/Math/OverlapAdd.hpp: OverlapAdd", "include/dspbb/Math/FFT.hpp: Fft, Ifft"]}
{"id": "C92", "title": "The cutoff helpers choose filters that neither image nor alias", "statement": "InterpolFilterCutoff(P) is 1/P up to 3 roundings (correctly rounded if P is a double), ResampleFilterCutoff(rate, P) is min(1, 1/rate)/P up to a relative error of 11 u. A low-pass designed for the returned cutoff (relative transition half-width t, passband deviation d, stopband gain e) makes Interpolate reproduce every sinusoid below the input's Nyquist frequency, less the transition band and the rounding of the cutoff, within |A| (d + (P-1) e); makes Resample reproduce every sinusoid that both rates can represent within |A| (d + (P-1) e + (w/P)^2/8), and attenuate every sinusoid that the output rate cannot represent, which would alias, to |A| P e.", "quantifier": "all numbers of phases and positive rates of 64 bits, rounding modes, filters, sinusoids (amplitude, frequency, phase), start points and output samples where the filter overlaps only the input", "why_tests_cant": "The claim is about all frequencies in continuous bands and all filters; a test checks a few sinusoids with one filter.", "anchors": ["include/dspbb/Filtering/Resample.hpp: InterpolFilterCutoff", "include/dspbb/Filtering/Resample.hpp: ResampleFilterCutoff", "include/dspbb/Filtering/Resample.hpp: Interpolate", "include/dspbb/Filtering/Resample.hpp: Resample"]}
{"id": "C93", "title": "LinSpace and the cosine and triangular windows are accurate in floating point", "statement": "LinSpace in rounded arithmetic writes every sample, and only the output span, within u |exact| + 9 u i |step| + (3 i + 2) tiny of start + i step. HammingWindow, BlackmanWindow, BlackmanHarrisWindow and TriangularWindow of two or more samples are within uc/2 + 46 u, uc + 80 u, uc + 100 u and 40 u of their formulas (uc: error of std::cos), whatever the length, and are symmetric up to twice that.", "quantifier": "all floating point formats with u <= 1/1000 whose range fits the length, all lengths, memories and output spans, finite start and end, both inclusive flags, vectorised or not, asserts on or off", "why_tests_cant": "Rounding errors could grow with the index and the length; a test sees a few lengths in one format.", "anchors": ["include/dspbb/Generators/Spaces.hpp: LinSpace", "include/dspbb/Filtering/Windowing.hpp: HammingWindow", "include/dspbb/Filtering/Windowing.hpp: BlackmanWindow", "include/dspbb/Filtering/Windowing.hpp: BlackmanHarrisWindow", "include/dspbb/Filtering/Windowing.hpp: TriangularWindow"]}
{"id": "C94", "title": "The FFT of real data is accurate in floating point", "statement": "For n real samples of magnitude at most X, n without a prime factor above 5, the real-to-complex transform computed with rounded arithmetic, rounded twiddles and rounded literals writes exactly the first n/2+1 bins, each within 600 h n log2(n) (u X + tiny) of the exact spectrum, and the complex-to-real transform returns n samples within 600 h n log2(n) (2 u X + tiny) of the exact inverse sum; no intermediate overflows. The 1/n factor costs one more rounding.", "quantifier": "all floating point formats with 2000 h^2 (log2 n + 1) u <= 1 and enough exponent range, all n >= 1 with prime factors 2, 3, 5, all finite inputs, any contents of the scratch memory and of the output", "why_tests_cant": "The error must not build up over log n passes for any length and any data; tests compare a few lengths and random data with a loose tolerance.", "anchors": ["include/dspbb/PocketFFT/pocketfft_hdronly.h: rfftp", "include/dspbb/PocketFFT/pocketfft_hdronly.h: general_r2c", "include/dspbb/PocketFFT/pocketfft_hdronly.h: general_c2r", "include/dspbb/Math/FFT.hpp: Fft", "include/dspbb/Math/FFT.hpp: Ifft"]}
{"id": "C95", "title": "Overlap-add convolution of real signals is accurate in floating point", "statement": "OverlapAdd of two real signals with samples of magnitude at most U and V, in chunks of K samples (K without a prime factor above 5, K >= 2 |shorter| - 1), returns finite samples within 2 B (eps + u S) of the exact convolution plus the previous contents when accumulating, with eps = 114000 h (log2 K + 1) u K^2 U V, B = (K-1)/|shorter| + 1 and S the largest possible output. The error does not depend on the length of the longer signal and nothing overflows.", "quantifier": "all floating point formats with 2000 h^2 (log2 K + 1) u <= 1 and enough exponent range, all signals, both operand orders, all chunk sizes K = 2^a 3^b 5^c, offsets, output lengths, clearing or accumulating, any contents of uninitialised memory", "why_tests_cant": "Chunks overlap and each goes through three rounded transforms; an error growing with the signal length or with the overlap appears only for long signals and particular sizes.", "anchors": ["include/dspbb/Math/OverlapAdd.hpp: OverlapAdd, FftFilter, FftChunk, IfftChunk", "include/dspbb/Math/FFT.hpp: Fft, Ifft"]}
{"id": "C96", "title": "Streaming FIR filtering by overlap-add in floating point", "statement": "Filtering a signal block by block with Filter(out, signal, filter, state, FILTER_OLA, chunkSize) on real float or double signals succeeds for every way of cutting the signal into nonempty blocks, leaves exactly the last filter.size() - 1 input samples in the state, and yields finite output samples that each differ from the exact causal filter output by at most a fixed multiple of the unit roundoff (depending on the chunk size, the filter length and the magnitudes of samples and coefficients, not on the length of the signal or the number of blocks): rounding errors do not build up from block to block.", "quantifier": "every floating point format, filter of two or more coefficients, initial state, finite signal of any length, division into nonempty blocks and chunk size of at least twice the filter length minus one without a prime factor above 5, with magnitudes that do not overflow", "why_tests_cant": "Tests filter a few signals with tolerances; they cannot show that no signal, however long, and no division into blocks exceeds a bound.", "anchors": ["include/dspbb/Filtering/FIR/Filter.hpp: Filter (FILTER_OLA)", "include/dspbb/Math/OverlapAdd.hpp: OverlapAdd", "include/dspbb/Math/FFT.hpp: Fft, Ifft"]}
{"id": "C97", "title": "Evaluating polynomials in floating point", "statement": "Evaluating a Polynomial with n coefficients in float or double arithmetic at a real number x gives a finite result off from the exact value by at most 3 n u times the value of the polynomial with the coefficients and x replaced by their magnitudes, and at a complex number by at most 9 n u times it (plus terms of the size of the underflow threshold); evaluating a FactoredPolynomial with n factors at a real number is off by at most 8 (n + 2) u times the product of the root distances (|x - r| for a real root r, (|x| + |a|)^2 + b^2 for a conjugate pair a +- bi), in whatever order std::transform_reduce multiplies the factors; if all roots are real this is a relative error, so the result is accurate even close to the roots.", "quantifier": "every floating point format, list of coefficients or roots of any length with 60 (n + 2) u <= 1, argument, and order of multiplication, with magnitudes that do not overflow", "why_tests_cant": "Tests evaluate a few low-order polynomials with tolerances; the bound over all coefficients, degrees, arguments and reduction orders needs a proof.", "anchors": ["include/dspbb/Math/Polynomials.hpp: Polynomial::Eval, FactoredPolynomial::eval"]}
{"id": "C98", "title": "Expanding a factored polynomial in floating point", "statement": "ExpandPolynomial of a factored polynomial with N roots (real roots and conjugate pairs) in float or double arithmetic succeeds, yields N + 1 finite coefficients, and every coefficient is off from the exact one by at most 3 N u times the sum of the magnitudes of the terms that make it up (plus 10 N underflow thresholds times the sum of all magnitudes); if no root is to the right of the imaginary axis the terms do not cancel, and the error is relative to the exact coefficient.", "quantifier": "every floating point format, numbers of real roots and pairs with 100 (N + 1) u <= 1, and finite roots for which the coefficients do not overflow", "why_tests_cant": "Tests expand two or three polynomials with tolerances; the bound per coefficient over all degrees and roots needs an induction over the factors.", "anchors": ["include/dspbb/Math/Polynomials.hpp: ExpandPolynomial, MultiplyPolynomialBy1stOrder, MultiplyPolynomialBy2ndOrder"]}
{"id": "C99", "title": "A windowed low-pass kernel computed in float or double is symmetric bit for bit, has unit DC gain up to rounding, and its taps match the exact design", "statement": "Let KernelWindowedLowpass be called on n (odd) single or double precision taps with cutoff fc and a window function or a given window outside the taps. (1) If the window is symmetric then tap n-1-i equals tap i bit for bit, so the filter has exactly linear phase, whatever is rounded or overflows. (2) Each tap is within (2n+60) u |w_i| W / S^2, plus underflow, of w_i sinc(fc (i - n/2)) / S, where w_i is the window as computed, S the exact sum of the windowed sincs and W the sum of |w_i|. (3) The exact values of the taps sum to 1 up to (2n+5) u W / |S|. (4) At every frequency the response of the taps is within (2n+60) u (W/S)^2, plus underflow, of the response of the exact design. Nothing outside the taps changes.", "quantifier": "all odd n, all cutoffs in (0, 1], all windows and window functions, every rounding of every operation permitted by the format, every register width and order of the summation, every memory", "why_tests_cant": "tests compare a few filters in float with a loose tolerance; they cannot bound the rounding error for every length, window and evaluation order, nor show exact symmetry for every input", "anchors": ["include/dspbb/Filtering/FIR/Windowed.hpp: KernelWindowedLowpass (both overloads)", "include/dspbb/Math/Statistics.hpp: Sum"]}
{"id": "C100", "title": "The windowed high pass designed in float or double is symmetric bit for bit, blocks DC up to rounding, and its taps and response match the exact design", "statement": "Let DesignFilter design a windowed high pass (Fir.Highpass.Windowed) of n (odd) single or double precision taps with cutoff fc. (1) If the window is symmetric then tap n-1-i equals tap i bit for bit. (2) Each tap is finite and within (3n+70) u |w_i| W / S^2, plus underflow (and 2 u for the middle tap), of [i = n/2] - w_i sinc(fc (i - n/2)) / S, where w is the window as computed, S the exact sum of the windowed sincs and W the sum of |w_i|. (3) At every frequency the response of the taps is within (3n+70) u (W/S)^2 + 2u, plus underflow, of the response of that exact design. (4) The gain at DC, the exact sum of the taps, is at most that bound: a constant signal is rejected however long the filter is. Nothing outside the taps changes.", "quantifier": "all odd n, all cutoffs in (0, 1], all windows and window functions, every rounding of every operation permitted by the format, every register width and order of the summation, every memory", "why_tests_cant": "tests compare a few filters in float with a loose tolerance; the rejection of DC relies on cancellation of rounded taps, and no set of examples bounds what is left for every length, window and evaluation order", "anchors": ["include/dspbb/Filtering/FIR.hpp: DesignFilter (windowed HighpassDesc)", "include/dspbb/Filtering/FIR/BandTransforms.hpp: ComplementaryResponse", "include/dspbb/Filtering/FIR/Windowed.hpp: KernelWindowedLowpass"]}
{"id": "C101", "title": "Windowed band pass and band stop designed in float or double are symmetric bit for bit, and the frequency shift is accurate", "statement": "For n (odd) taps in single or double precision: (1) the windowed band pass is the computed low pass of half the band width with tap i multiplied by the computed cosine and doubled, the band stop its complement; if the window is symmetric, tap n-1-i of either equals tap i bit for bit, so both have exactly linear phase whatever is rounded or overflows. (2) ShiftResponse in place, to a frequency f of magnitude at most 1, makes every tap finite and within (2 uc + 34 n u) |h_i| + 4 tiny of 2 cos(pi f (i - n/2)) h_i, where uc is the error of std::cos. Nothing outside the taps changes.", "quantifier": "all odd n, all band edges, windows and window functions; for the accuracy all filters and frequencies that do not overflow with n u <= 1/20; every rounding permitted by the format, every register width and summation order, every memory", "why_tests_cant": "tests compare a few band filters with a loose tolerance; exact symmetry for every input and a bound that covers every length and frequency need a proof", "anchors": ["include/dspbb/Filtering/FIR.hpp: DesignFilter (windowed BandpassDesc, BandstopDesc)", "include/dspbb/Filtering/FIR/BandTransforms.hpp: ShiftResponse, ComplementaryResponse"]}
