import Verif.Model.PocketReal

/-!
# The trigonometric literals of the bundled FFT  (include/dspbb/PocketFFT/pocketfft_hdronly.h)

The model of the passes uses exact trigonometric constants (`cR`, `cI`, `hsqt2`).  These are the decimal numbers
the source has in their place, as numerators over `10^34`.  (The compiler rounds each of them once to `T0`.)
-/

namespace Verif.Pocket

/-- `(twjr, ±twji) * 10^34` of the pass of radix `n`: radix 3 at 789-790, 1510, 1824; radix 5 at 902-905, 1596-1599,
1916-1919; radix 7 at 973-978; radix 11 at 1153-1162 -/
def litNum : ℕ → ℕ → ℤ × ℤ
  | 3, 1 => (-5000000000000000000000000000000000, 8660254037844386467637231707529362)
  | 5, 1 => (3090169943749474241022934171828191, 9510565162951535721164393333793821)
  | 5, 2 => (-8090169943749474241022934171828191, 5877852522924731291687059546390728)
  | 7, 1 => (6234898018587335305250048840042398, 7818314824680298087084445266740578)
  | 7, 2 => (-2225209339563144042889025644967948, 9749279121818236070181316829939312)
  | 7, 3 => (-9009688679024191262361023195074451, 4338837391175581204757683328483590)
  | 11, 1 => (8412535328311811688618116489193677, 5406408174555975821076359543186917)
  | 11, 2 => (4154150130018864255292741492296232, 9096319953545183714117153830790285)
  | 11, 3 => (-1423148382732851404437926686163697, 9898214418809327323760920377767188)
  | 11, 4 => (-6548607339452850640569250724662936, 7557495743542582837740358439723444)
  | 11, 5 => (-9594929736144973898903680570663277, 2817325568414296977114179153466169)
  | _, _ => (0, 0)

/-- the literal in place of `cR n j` -/
noncomputable def litR (n j : ℕ) : ℝ := (litNum n j).1 / 10 ^ 34

/-- the literal in place of `cI false n j`; for the forward transform it is multiplied by `-1`, which is exact -/
noncomputable def litI (n j : ℕ) : ℝ := (litNum n j).2 / 10 ^ 34

/-- 1021, 1029, 1549: `hsqt2` -/
noncomputable def litHsqt2 : ℝ := 0.707106781186547524400844362104849

/-- 1864: `sqrt2` -/
noncomputable def litSqrt2 : ℝ := 1.414213562373095048801688724209698

end Verif.Pocket
