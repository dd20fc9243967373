import Verif.Model.Analytical
import Mathlib.Analysis.SpecialFunctions.Gamma.Basic

/-!
# Density of the Cox-Ingersoll-Ross process

Model of `cir_pdf` of `/repo/sdepy/analytical.py`.
-/

namespace Sdepy

open Real
open scoped Nat

/-- `scipy.special.iv`: modified Bessel function of the first kind and real order, by its defining
series, for positive `z`. -/
noncomputable def besselI (v z : ℝ) : ℝ :=
  ∑' m : ℕ, (z / 2) ^ (2 * m + v) / (m ! * Gamma (m + v + 1))

/-- `cir_pdf` (`analytical.py` 534-553), for positive `x0` and `t`, and `k` other than zero. NaN (`none`)
for negative `x`, because of the square root; `x = 0` is modelled only if the order of the Bessel function
is not negative, and counts as NaN otherwise (where both factors are infinite). -/
noncomputable def cirPdf (x0 theta k xi t x : ℝ) : Option ℝ :=
  let alpha := exp (-k * t)
  let c := 2 * k / (1 - alpha) / (xi * xi)
  let q := 2 * k * theta / (xi * xi) - 1
  if x < 0 ∨ x = 0 ∧ q < 0 then none
  else some (c * exp (-c * (x0 * alpha + x)) * (x / (x0 * alpha)) ^ (q / 2) *
    besselI q (2 * c * √(x * x0 * alpha)))

end Sdepy
