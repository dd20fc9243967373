import Verif.Model.Analytical
import Verif.Np
import Mathlib.MeasureTheory.Integral.Bochner.Basic
import Mathlib.MeasureTheory.Measure.Lebesgue.Basic

/-!
# Densities computed from characteristic functions

Model of `_chf_to_pdf` and of its callers in `/repo/sdepy/analytical.py`. Simplified:
`scipy.integrate.quad` over the real line is the exact integral (its errors are "not reported/checked",
as documented).
-/

namespace Sdepy

open Real MeasureTheory

/-- `f` of `_chf_to_pdf` (`analytical.py` 674-676). -/
noncomputable def chfIntegrand (chf : ℝ → ℂ → ℂ) (u t x : ℝ) : ℝ :=
  (Complex.exp (-Complex.I * u * x) / (2 * π) * chf t u).re

/-- `_chf_to_pdf` (`analytical.py` 664-687). If both `t` and `x` are arrays, `quad` gets an array
instead of a number, and raises, unless `x` holds one value, or `t` none. -/
noncomputable def chfToPdf (t x : Arr ℝ) (chf : ℝ → ℂ → ℂ) : Py (Arr ℝ) :=
  if t.shape ≠ [] then
    if x.shape.prod = 1 ∨ t.shape.prod = 0 then
      .ok ⟨t.shape, fun i => ∫ u : ℝ, chfIntegrand chf u (t.get i) (x.get (x.shape.map fun _ => 0))⟩
    else .error .typeError
  else
    .ok ⟨x.shape, fun i => ∫ u : ℝ, chfIntegrand chf u (t.get []) (x.get i)⟩

/-- `heston_log_pdf` (`analytical.py` 691-717). -/
noncomputable def hestonLogPdf (x0 mu sigma y0 theta k xi rho : ℝ) (t logx : Arr ℝ) : Py (Arr ℝ) :=
  chfToPdf t logx (hestonLogChf x0 mu sigma y0 theta k xi rho)

/-- `mjd_log_pdf` (`analytical.py` 782-806). -/
noncomputable def mjdLogPdf (x0 mu sigma lam a b : ℝ) (t logx : Arr ℝ) : Py (Arr ℝ) :=
  chfToPdf t logx (mjdLogChf x0 mu sigma lam a b)

/-- `kou_log_pdf` (`analytical.py` 872-899); here parameters are in the order of `kou_log_chf`. -/
noncomputable def kouLogPdf (x0 mu sigma lam a b pa : ℝ) (t logx : Arr ℝ) : Py (Arr ℝ) :=
  chfToPdf t logx (kouLogChf x0 mu sigma lam a b pa)

end Sdepy
