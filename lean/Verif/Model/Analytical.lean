import Verif.Lemmas.Normal
import Mathlib.Analysis.SpecialFunctions.Log.Basic
import Mathlib.Analysis.SpecialFunctions.Complex.Log
import Mathlib.Analysis.SpecialFunctions.Pow.Complex
import Mathlib.Data.EReal.Basic
import Mathlib.Data.EReal.Operations

/-!
# Analytical results for realized processes

Model of `/repo/sdepy/analytical.py`: one value of each function, for scalar parameters; array
parameters are the subject of `Verif/Model/ArrAnalytical.lean`. Simplified: arithmetic is exact.
Parameters come in the order of the signatures, followed by `t` and by the other variable. As in
python, parameters that do not matter (such as `x0` for variances) are accepted.

`normPdf` and `normCdf` (`Verif/Lemmas/Normal.lean`) are the standard normal density, and its
integral from minus infinity.
-/

namespace Sdepy

open Real

/-! ### Wiener process -/

/-- `wiener_mean` (`analytical.py` 24-37). -/
noncomputable def wienerMean (x0 mu _sigma t : ℝ) : ℝ := x0 + mu * t

/-- `wiener_var` (`analytical.py` 41-54). -/
noncomputable def wienerVar (_x0 _mu sigma t : ℝ) : ℝ := sigma * sigma * t

/-- `wiener_std` (`analytical.py` 58-70). -/
noncomputable def wienerSd (x0 mu sigma t : ℝ) : ℝ := √(wienerVar x0 mu sigma t)

/-- `scipy.stats.norm.pdf(x, loc, scale)`: NaN (`none`) unless the scale is positive. -/
noncomputable def scipyNormPdf (x loc scale : ℝ) : Option ℝ :=
  if 0 < scale then some (normPdf ((x - loc) / scale) / scale) else none

/-- `scipy.stats.norm.cdf(x, loc, scale)`: NaN (`none`) unless the scale is positive. -/
noncomputable def scipyNormCdf (x loc scale : ℝ) : Option ℝ :=
  if 0 < scale then some (normCdf ((x - loc) / scale)) else none

/-- `wiener_pdf` (`analytical.py` 74-89). -/
noncomputable def wienerPdf (x0 mu sigma t x : ℝ) : Option ℝ :=
  scipyNormPdf x (x0 + mu * t) (sigma * √t)

/-- `wiener_cdf` (`analytical.py` 93-108). -/
noncomputable def wienerCdf (x0 mu sigma t x : ℝ) : Option ℝ :=
  scipyNormCdf x (x0 + mu * t) (sigma * √t)

/-- `wiener_chf` (`analytical.py` 112-125). -/
noncomputable def wienerChf (x0 mu sigma t : ℝ) (u : ℂ) : ℂ :=
  Complex.exp (Complex.I * u * x0 + t * (Complex.I * mu * u - sigma * sigma * u * u / 2))

/-! ### lognormal process -/

/-- `lognorm_mean` (`analytical.py` 133-145). -/
noncomputable def lognormMean (x0 mu _sigma t : ℝ) : ℝ := x0 * exp (mu * t)

/-- `lognorm_var` (`analytical.py` 149-161). -/
noncomputable def lognormVar (x0 mu sigma t : ℝ) : ℝ :=
  x0 * x0 * (exp (sigma * sigma * t) - 1) * exp (2 * mu * t)

/-- `lognorm_std` (`analytical.py` 165-176). -/
noncomputable def lognormSd (x0 mu sigma t : ℝ) : ℝ := √(lognormVar x0 mu sigma t)

/-- `scipy.stats.lognorm.pdf(x, s, scale=scale)`: NaN (`none`) unless `s` and the scale are
positive; it is zero for `x <= 0`. -/
noncomputable def scipyLognormPdf (x s scale : ℝ) : Option ℝ :=
  if 0 < s ∧ 0 < scale then
    some (if 0 < x then normPdf (log (x / scale) / s) / (s * (x / scale)) / scale else 0)
  else none

/-- `scipy.stats.lognorm.cdf(x, s, scale=scale)`. -/
noncomputable def scipyLognormCdf (x s scale : ℝ) : Option ℝ :=
  if 0 < s ∧ 0 < scale then some (if 0 < x then normCdf (log (x / scale) / s) else 0) else none

/-- `lognorm_pdf` (`analytical.py` 180-195). -/
noncomputable def lognormPdf (x0 mu sigma t x : ℝ) : Option ℝ :=
  let mt := mu * t
  let st := sigma * √t
  scipyLognormPdf x st (x0 * exp (mt - st * st / 2))

/-- `lognorm_cdf` (`analytical.py` 199-214). -/
noncomputable def lognormCdf (x0 mu sigma t x : ℝ) : Option ℝ :=
  let mt := mu * t
  let st := sigma * √t
  scipyLognormCdf x st (x0 * exp (mt - st * st / 2))

/-- `lognorm_log_chf` (`analytical.py` 218-232); `x0` is positive. -/
noncomputable def lognormLogChf (x0 mu sigma t : ℝ) (u : ℂ) : ℂ :=
  let mu0 := mu - sigma * sigma / 2
  Complex.exp (Complex.I * u * (log x0 : ℝ) +
    t * (Complex.I * (mu0 : ℝ) * u - sigma * sigma * u * u / 2))

/-! ### Ornstein-Uhlenbeck process, and Hull-White process with one factor -/

/-- `oruh_mean` (`analytical.py` 240-253). -/
noncomputable def oruhMean (x0 theta k _sigma t : ℝ) : ℝ := theta - exp (-k * t) * (theta - x0)

/-- `oruh_var` (`analytical.py` 257-270). -/
noncomputable def oruhVar (_x0 _theta k sigma t : ℝ) : ℝ :=
  (sigma * sigma) / (2 * k) * (1 - exp (-2 * k * t))

/-- `oruh_std` (`analytical.py` 274-286). -/
noncomputable def oruhSd (x0 theta k sigma t : ℝ) : ℝ := √(oruhVar x0 theta k sigma t)

/-- `oruh_pdf` (`analytical.py` 290-304). -/
noncomputable def oruhPdf (x0 theta k sigma t x : ℝ) : Option ℝ :=
  scipyNormPdf x (oruhMean x0 theta k sigma t) (√(oruhVar x0 theta k sigma t))

/-- `oruh_cdf` (`analytical.py` 308-322). -/
noncomputable def oruhCdf (x0 theta k sigma t x : ℝ) : Option ℝ :=
  scipyNormCdf x (oruhMean x0 theta k sigma t) (√(oruhVar x0 theta k sigma t))

/-! ### Hull-White process with two factors: parameters as returned by `_hw2f_args_setup` -/

/-- `hw2f_mean` (`analytical.py` 377-394). -/
noncomputable def hw2fMean (x1 x2 theta1 theta2 k1 k2 _s1 _s2 _rho t : ℝ) : ℝ :=
  theta1 - exp (-k1 * t) * (theta1 - x1) + theta2 - exp (-k2 * t) * (theta2 - x2)

/-- `hw2f_var` (`analytical.py` 398-416). -/
noncomputable def hw2fVar (_x1 _x2 _theta1 _theta2 k1 k2 s1 s2 rho t : ℝ) : ℝ :=
  (s1 * s1) / (2 * k1) * (1 - exp (-2 * k1 * t)) +
  (s2 * s2) / (2 * k2) * (1 - exp (-2 * k2 * t)) +
  (2 * s1 * s2 * rho) / (k1 + k2) * (1 - exp (-(k1 + k2) * t))

/-- `hw2f_std` (`analytical.py` 420-435). -/
noncomputable def hw2fSd (x1 x2 theta1 theta2 k1 k2 s1 s2 rho t : ℝ) : ℝ :=
  √(hw2fVar x1 x2 theta1 theta2 k1 k2 s1 s2 rho t)

/-- `hw2f_pdf` (`analytical.py` 439-457). -/
noncomputable def hw2fPdf (x1 x2 theta1 theta2 k1 k2 s1 s2 rho t x : ℝ) : Option ℝ :=
  scipyNormPdf x (hw2fMean x1 x2 theta1 theta2 k1 k2 s1 s2 rho t)
    (√(hw2fVar x1 x2 theta1 theta2 k1 k2 s1 s2 rho t))

/-- `hw2f_cdf` (`analytical.py` 461-475). -/
noncomputable def hw2fCdf (x1 x2 theta1 theta2 k1 k2 s1 s2 rho t x : ℝ) : Option ℝ :=
  scipyNormCdf x (hw2fMean x1 x2 theta1 theta2 k1 k2 s1 s2 rho t)
    (√(hw2fVar x1 x2 theta1 theta2 k1 k2 s1 s2 rho t))

/-! ### Cox-Ingersoll-Ross process -/

/-- `cir_mean` (`analytical.py` 483-496). -/
noncomputable def cirMean (x0 theta k _xi t : ℝ) : ℝ :=
  let alpha := exp (-k * t)
  theta + (x0 - theta) * alpha

/-- `cir_var` (`analytical.py` 500-514). -/
noncomputable def cirVar (x0 theta k xi t : ℝ) : ℝ :=
  let alpha := exp (-k * t)
  (xi * xi / k) * (1 - alpha) * (theta / 2 + (x0 - theta / 2) * alpha)

/-- `cir_std` (`analytical.py` 518-530). -/
noncomputable def cirSd (x0 theta k xi t : ℝ) : ℝ := √(cirVar x0 theta k xi t)

/-! ### Heston process -/

/-- `heston_log_mean` (`analytical.py` 560-579). -/
noncomputable def hestonLogMean (x0 mu sigma y0 theta k _xi _rho t : ℝ) : ℝ :=
  let alpha := exp (-k * t)
  log x0 + sigma * sigma * (theta - y0) * (1 - alpha) / (2 * k) +
    (mu - theta * sigma * sigma / 2) * t

/-- `heston_log_var` (`analytical.py` 583-611). -/
noncomputable def hestonLogVar (_x0 _mu sigma y0 theta k xi rho t : ℝ) : ℝ :=
  let alpha := exp (-k * t)
  let omega1 := (alpha * sigma * xi) ^ 2 +
    4 * alpha * ((1 + k * t) * (sigma * xi) ^ 2 -
                 2 * rho * k * sigma * xi * (2 + k * t) +
                 2 * k * k) +
    (2 * k * t - 5) * (sigma * xi) ^ 2 -
    8 * rho * k * sigma * xi * (k * t - 2) +
    8 * k * k * (k * t - 1)
  let omega2 := -(alpha * sigma * xi) ^ 2 +
    2 * alpha * (-(sigma * xi) ^ 2 * k * t +
                 2 * rho * sigma * xi * k * (k * t + 1) -
                 2 * k * k) +
    (sigma * xi) ^ 2 -
    4 * rho * k * sigma * xi +
    4 * k * k
  sigma * sigma * (theta * omega1 / 2 + y0 * omega2) / (4 * k ^ 3)

/-- `heston_log_std` (`analytical.py` 615-632). -/
noncomputable def hestonLogSd (x0 mu sigma y0 theta k xi rho t : ℝ) : ℝ :=
  √(hestonLogVar x0 mu sigma y0 theta k xi rho t)

/-- Complex `numpy.sqrt`: the principal square root. -/
noncomputable def npCsqrt (z : ℂ) : ℂ := z ^ (1 / 2 : ℂ)

/-- `heston_log_chf` (`analytical.py` 636-661); `x0` is positive. Divisions by zero, which give
NaNs in numpy, give zero here. -/
noncomputable def hestonLogChf (x0 mu sigma y0 theta k xi rho t : ℝ) (u : ℂ) : ℂ :=
  let d := npCsqrt ((rho * sigma * xi * u * Complex.I - k) ^ 2 +
    (sigma * xi) ^ 2 * u * (Complex.I + u))
  let ap := k - rho * sigma * xi * u * Complex.I - d
  let am := k - rho * sigma * xi * u * Complex.I + d
  let g := ap / am
  let alpha := Complex.exp (-d * t)
  Complex.exp (Complex.I * u * ((log x0 : ℝ) + mu * t) +
    theta * k / (xi * xi) * (ap * t - 2 * Complex.log ((1 - g * alpha) / (1 - g))) +
    y0 / (xi * xi) * ap * (1 - alpha) / (1 - g * alpha))

/-! ### jump-diffusion processes -/

/-- `mjd_mean` (`analytical.py` 724-744). -/
noncomputable def mjdMean (x0 mu _sigma lam a b t : ℝ) : ℝ :=
  let exp_mean := exp (a + b * b / 2)
  let nu := lam * (exp_mean - 1)
  let mu1 := mu + nu
  x0 * exp (mu1 * t)

/-- `mjd_log_chf` (`analytical.py` 748-777); `x0` is positive. -/
noncomputable def mjdLogChf (x0 mu sigma lam a b t : ℝ) (u : ℂ) : ℂ :=
  let mu0 := mu - sigma * sigma / 2
  Complex.exp (Complex.I * u * (log x0 : ℝ) +
    t * (Complex.I * (mu0 : ℝ) * u - sigma * sigma * u * u / 2 +
      lam * (Complex.exp (Complex.I * a * u - b * b * u * u / 2) - 1)))

/-- `kou_mean` (`analytical.py` 813-835). -/
noncomputable def kouMean (x0 mu _sigma lam a b pa t : ℝ) : ℝ :=
  let pb := 1 - pa
  let exp_mean := pa / (1 - a) + pb / (1 + b)
  let nu := lam * (exp_mean - 1)
  let mu1 := mu + nu
  x0 * exp (mu1 * t)

/-- `kou_log_chf` (`analytical.py` 839-868); `x0` is positive. -/
noncomputable def kouLogChf (x0 mu sigma lam a b pa t : ℝ) (u : ℂ) : ℂ :=
  let pb := 1 - pa
  let mu0 := mu - sigma * sigma / 2
  Complex.exp (Complex.I * u * (log x0 : ℝ) +
    t * (Complex.I * (mu0 : ℝ) * u - sigma * sigma * u * u / 2 +
      Complex.I * u * lam * (pa / (1 / a - Complex.I * u) - (pb : ℝ) / (1 / b + Complex.I * u))))

/-! ### Black-Scholes formulae -/

/-- `d1` and `d2` of `bsd1d2` (`analytical.py` 906-930), for positive `x0` and `k`, and nonnegative
`t`. They may be infinite. -/
noncomputable def bsd1d2 (k t x0 r q sigma : ℝ) : EReal × EReal :=
  let A := log (x0 / k) + (r - q + 0.5 * sigma ^ 2) * t
  let B := sigma * √t
  let d1 : EReal :=
    if B = 0 then (if A = 0 then 0 else if 0 < A then ⊤ else ⊥) else ((A / B : ℝ) : EReal)
  (d1, d1 - (B : EReal))

/-- `scipy.stats.norm.cdf`, of numbers that may be infinite. -/
noncomputable def npNormCdf (x : EReal) : ℝ :=
  if x = ⊥ then 0 else if x = ⊤ then 1 else normCdf x.toReal

/-- `bscall` (`analytical.py` 934-986). -/
noncomputable def bscall (k t x0 r q sigma : ℝ) : ℝ :=
  let d := bsd1d2 k t x0 r q sigma
  x0 * exp (-q * t) * npNormCdf d.1 - k * exp (-r * t) * npNormCdf d.2

/-- `bscall_delta` (`analytical.py` 990-1002). -/
noncomputable def bscallDelta (k t x0 r q sigma : ℝ) : ℝ :=
  let d := bsd1d2 k t x0 r q sigma
  exp (-q * t) * npNormCdf d.1

/-- `bsput` (`analytical.py` 1006-1019). -/
noncomputable def bsput (k t x0 r q sigma : ℝ) : ℝ :=
  let d := bsd1d2 k t x0 r q sigma
  k * exp (-r * t) * npNormCdf (-d.2) - x0 * exp (-q * t) * npNormCdf (-d.1)

/-- `bsput_delta` (`analytical.py` 1023-1035). -/
noncomputable def bsputDelta (k t x0 r q sigma : ℝ) : ℝ :=
  let d := bsd1d2 k t x0 r q sigma
  (-exp (-q * t)) * npNormCdf (-d.1)

end Sdepy
