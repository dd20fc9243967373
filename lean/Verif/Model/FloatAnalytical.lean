import Verif.NpFloat
import Verif.Model.CirPdf

/-!
# Analytical results, with divisions by zero as evaluated by NumPy

Model of those functions of `/repo/sdepy/analytical.py` whose formulas divide by parameters that may be zero:
the same formulas as in `Verif/Model/Analytical.lean` and `Verif/Model/CirPdf.lean`, evaluated on `Fl`, where
divisions by zero give infinities and NaNs. One value of each function, for scalar parameters.
-/

namespace Sdepy

open Fl

/-- `oruh_var` (`analytical.py` 257-270). -/
noncomputable def oruhVarFl (_x0 _theta k sigma t : Fl) : Fl :=
  (sigma * sigma) / (2 * k) * (1 - exp (-2 * k * t))

/-- `oruh_std` (`analytical.py` 274-286). -/
noncomputable def oruhSdFl (x0 theta k sigma t : Fl) : Fl := sqrt (oruhVarFl x0 theta k sigma t)

/-- `scipy.stats.norm.pdf(x, loc, scale)`: NaN unless the scale is positive. Infinite arguments are not modelled,
and count as NaN. -/
noncomputable def normPdfFl : Fl → Fl → Fl → Fl
  | fin x, fin loc, fin scale => match scipyNormPdf x loc scale with
    | some p => fin p
    | none => nan
  | _, _, _ => nan

/-- `scipy.stats.norm.cdf(x, loc, scale)`, with the same conventions. -/
noncomputable def normCdfFl : Fl → Fl → Fl → Fl
  | fin x, fin loc, fin scale => match scipyNormCdf x loc scale with
    | some p => fin p
    | none => nan
  | _, _, _ => nan

/-- `oruh_mean` (`analytical.py` 240-253). -/
noncomputable def oruhMeanFl (x0 theta k _sigma t : Fl) : Fl := theta - exp (-k * t) * (theta - x0)

/-- `oruh_pdf` (`analytical.py` 290-304). -/
noncomputable def oruhPdfFl (x0 theta k sigma t x : Fl) : Fl :=
  normPdfFl x (oruhMeanFl x0 theta k sigma t) (sqrt (oruhVarFl x0 theta k sigma t))

/-- `oruh_cdf` (`analytical.py` 308-322). -/
noncomputable def oruhCdfFl (x0 theta k sigma t x : Fl) : Fl :=
  normCdfFl x (oruhMeanFl x0 theta k sigma t) (sqrt (oruhVarFl x0 theta k sigma t))

/-- `hw2f_var` (`analytical.py` 398-416), on parameters as returned by `_hw2f_args_setup`. -/
noncomputable def hw2fVarFl (_x1 _x2 _theta1 _theta2 k1 k2 s1 s2 rho t : Fl) : Fl :=
  (s1 * s1) / (2 * k1) * (1 - exp (-2 * k1 * t)) +
  (s2 * s2) / (2 * k2) * (1 - exp (-2 * k2 * t)) +
  (2 * s1 * s2 * rho) / (k1 + k2) * (1 - exp (-(k1 + k2) * t))

/-- `hw2f_std` (`analytical.py` 420-435). -/
noncomputable def hw2fSdFl (x1 x2 theta1 theta2 k1 k2 s1 s2 rho t : Fl) : Fl :=
  sqrt (hw2fVarFl x1 x2 theta1 theta2 k1 k2 s1 s2 rho t)

/-- `cir_var` (`analytical.py` 500-514). -/
noncomputable def cirVarFl (x0 theta k xi t : Fl) : Fl :=
  let alpha := exp (-k * t)
  (xi * xi / k) * (1 - alpha) * (theta / 2 + (x0 - theta / 2) * alpha)

/-- `cir_std` (`analytical.py` 518-530). -/
noncomputable def cirSdFl (x0 theta k xi t : Fl) : Fl := sqrt (cirVarFl x0 theta k xi t)

/-- `heston_log_mean` (`analytical.py` 560-579). -/
noncomputable def hestonLogMeanFl (x0 mu sigma y0 theta k _xi _rho t : Fl) : Fl :=
  let alpha := exp (-k * t)
  log x0 + sigma * sigma * (theta - y0) * (1 - alpha) / (2 * k) +
    (mu - theta * sigma * sigma / 2) * t

/-- `heston_log_var` (`analytical.py` 583-611). -/
noncomputable def hestonLogVarFl (_x0 _mu sigma y0 theta k xi rho t : Fl) : Fl :=
  let alpha := exp (-k * t)
  let omega1 := (alpha * sigma * xi) ^ (2 : ℕ) +
    4 * alpha * ((1 + k * t) * (sigma * xi) ^ (2 : ℕ) -
                 2 * rho * k * sigma * xi * (2 + k * t) +
                 2 * k * k) +
    (2 * k * t - 5) * (sigma * xi) ^ (2 : ℕ) -
    8 * rho * k * sigma * xi * (k * t - 2) +
    8 * k * k * (k * t - 1)
  let omega2 := -(alpha * sigma * xi) ^ (2 : ℕ) +
    2 * alpha * (-(sigma * xi) ^ (2 : ℕ) * k * t +
                 2 * rho * sigma * xi * k * (k * t + 1) -
                 2 * k * k) +
    (sigma * xi) ^ (2 : ℕ) -
    4 * rho * k * sigma * xi +
    4 * k * k
  sigma * sigma * (theta * omega1 / 2 + y0 * omega2) / (4 * k ^ (3 : ℕ))

/-- `heston_log_std` (`analytical.py` 615-632). -/
noncomputable def hestonLogSdFl (x0 mu sigma y0 theta k xi rho t : Fl) : Fl :=
  sqrt (hestonLogVarFl x0 mu sigma y0 theta k xi rho t)

open Classical in
/-- `scipy.special.iv(q, z)`, for a number `q > -1`, and `z >= 0`; other arguments are not modelled, and count as NaN. -/
noncomputable def ivFl (q : ℝ) : Fl → Fl
  | fin z =>
    if z < 0 ∨ q ≤ -1 then nan
    else if z = 0 then (if q < 0 then inf false else if q = 0 then fin 1 else fin 0)
    else fin (besselI q z)
  | inf false => inf false
  | _ => nan

/-- `cir_pdf` (`analytical.py` 534-553). -/
noncomputable def cirPdfFl (x0 theta k xi t x : Fl) : Fl :=
  let alpha := exp (-k * t)
  let c := 2 * k / (1 - alpha) / (xi * xi)
  match 2 * k * theta / (xi * xi) - 1 with
  | fin q =>
    c * exp (-c * (x0 * alpha + x)) * rpow (x / (x0 * alpha)) (q / 2) *
      ivFl q (2 * c * sqrt (x * x0 * alpha))
  | _ => nan   -- reached with `xi = 0` only, where `c` is infinite or NaN

end Sdepy
