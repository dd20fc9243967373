import Verif.Model.MonteCarlo
import Verif.Lemmas.Normal

/-!
# Model of `montecarlo`: estimates of densities (`/repo/sdepy/infrastructure.py`, lines 3117-3265)

Values are exact. Values that are not finite numbers, by division by zero, are modelled by `none`. Of the
interpolation kinds of `scipy.interpolate.interp1d`, only the default one (linear) is modelled. The
functions `sqrt`, `exp`, `scipy.special.erf` and the constant `pi` are the mathematical ones.
-/

namespace Sdepy

section field
variable {K : Type} [Field K] [DecidableEq K]

/-- `numpy.diff`. -/
def diffs (l : List K) : List K := List.zipWith (fun a b => b - a) l l.tail

/-- `(bins[:-1] + bins[1:])/2`. -/
def midpoints (l : List K) : List K := List.zipWith (fun a b => (a + b) / 2) l l.tail

/-- `counts/counts.sum()/np.diff(bins)` (line 3132). -/
def densities (counts : List ℤ) (bins : List K) : Option (List K) :=
  if (counts.sum : K) = 0 ∨ 0 ∈ diffs bins then none
  else some (List.zipWith (fun (c : ℤ) d => (c : K) / (counts.sum : ℤ) / d) counts (diffs bins))

/-- `density_histogram()` (`infrastructure.py` 3117-3132). -/
def MC.densityHistogram (mc : MC K) : Py (Option (List K) × List K) :=
  match mc.histogram with
  | .error e => .error e
  | .ok (counts, bins) => .ok (densities counts bins, bins)

/-- `outerr()` (`infrastructure.py` 3142-3146), for a single valued instance. -/
def MC.outerr (mc : MC K) : Py (Arr K) :=
  match mc.outpaths with
  | .error e => .error e
  | .ok a => .ok ⟨a.shape, fun i => (a.get i : K) / mc.paths⟩

variable [LinearOrder K]

/-- The segment on which to interpolate: the first one the upper end of which is not below `x`, or the
last one. -/
def interpSeg : List K → List K → K → K
  | x0 :: x1 :: xs, p0 :: p1 :: ps, x =>
    if x ≤ x1 ∨ xs = [] then p0 + (p1 - p0) / (x1 - x0) * (x - x0)
    else interpSeg (x1 :: xs) (p1 :: ps) x
  | _, ps, _ => ps.headD 0

/-- `scipy.interpolate.interp1d(xx, pp, kind='linear', assume_sorted=True, bounds_error=False,
fill_value=(lo, hi))(x)`. -/
def interp1d (xx pp : List K) (lo hi : K) (x : K) : K :=
  if x < xx.headD 0 then lo else if xx.getLastD 0 < x then hi else interpSeg xx pp x

/-- `numpy.cumsum`, starting from a given value. -/
def cumsumFrom (a : K) : List K → List K
  | [] => []
  | b :: l => (a + b) :: cumsumFrom (a + b) l

/-- The 'interp' method, cdf (lines 3175-3181, 3191-3195). -/
def interpCdf (ncounts bins : List K) (x : K) : K :=
  interp1d bins (0 :: cumsumFrom 0 (List.zipWith (· * ·) (diffs bins) ncounts)) 0 1 x

/-- The 'interp' method, pdf (lines 3182-3195). -/
def interpPdf (ncounts bins : List K) (x : K) : K :=
  interp1d (bins.headD 0 :: midpoints bins ++ [bins.getLastD 0]) (0 :: ncounts ++ [0]) 0 0 x

end field

/-- The 'interp' method, pdf, if the bins given by the user are integers: `numpy.histogram` returns them
unchanged, and the array of nodes has their dtype, so that midpoints are truncated (lines 3183-3185). -/
def interpPdfInt (ncounts : List ℚ) (bins : List ℤ) (x : ℚ) : ℚ :=
  interp1d ((bins.headD 0 :: List.zipWith (fun a b => (a + b).tdiv 2) bins bins.tail ++
    [bins.getLastD 0]).map fun z : ℤ => (z : ℚ)) (0 :: ncounts ++ [0]) 0 0 x

open Real

/-- The 'gaussian_kde' method, pdf (lines 3155-3172). -/
noncomputable def kdePdf (bandwidth : ℝ) (ncounts bins : List ℝ) (x : ℝ) : ℝ :=
  (List.zipWith (· * ·) (List.zipWith (fun d m =>
    let w := d * bandwidth
    let z := (x - m) / w
    1 / bandwidth * (exp (-z * z / 2) / √(2 * π))) (diffs bins) (midpoints bins)) ncounts).sum

/-- The 'gaussian_kde' method, cdf (lines 3155-3172). -/
noncomputable def kdeCdf (bandwidth : ℝ) (ncounts bins : List ℝ) (x : ℝ) : ℝ :=
  (List.zipWith (· * ·) (List.zipWith (fun d m =>
    let w := d * bandwidth
    let z := (x - m) / w
    w / bandwidth * ((erf (z / √2) + 1) / 2)) (diffs bins) (midpoints bins)) ncounts).sum

/-- `_pdf_or_cdf` (`infrastructure.py` 3149-3201), for `bandwidth` not zero, and
bins of a floating point dtype (see `interpPdfInt` for integers); `pdf`, `cdf` (lines
3203-3265) call it with `cdf_flag` respectively `False`, `True`. -/
noncomputable def MC.pdfOrCdf (mc : MC ℝ) (x : Arr ℝ) (method : String) (bandwidth : ℝ)
    (cdfFlag : Bool) : Py (Arr (Option ℝ)) :=
  match mc.densityHistogram with
  | .error e => .error e
  | .ok (ncounts, bins) =>
    if method = "gaussian_kde" then
      .ok ⟨x.shape, fun i => ncounts.map fun n =>
        if cdfFlag then kdeCdf bandwidth n bins (x.get i) else kdePdf bandwidth n bins (x.get i)⟩
    else if method = "interp" then
      .ok ⟨x.shape, fun i => ncounts.map fun n =>
        if cdfFlag then interpCdf n bins (x.get i) else interpPdf n bins (x.get i)⟩
    else .error .valueError

end Sdepy
