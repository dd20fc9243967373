import Verif.Spec.Chain
import Verif.Spec.Params
import Verif.Model.Presets
import Verif.Model.Sources
import Mathlib.Probability.Distributions.Gaussian.Multivariate
import Mathlib.Probability.Distributions.Gaussian.Real

/-!
# Steps of the Heston equations
-/

open MeasureTheory ProbabilityTheory

namespace Sdepy.Spec

/-- Two normal variates of variance `v` and correlation `rho`. -/
structure CorrNoise (rho v : ℝ) (N : Measure (ℝ × ℝ)) : Prop where
  fst : N.map Prod.fst = gaussianReal 0 v.toNNReal
  snd : N.map Prod.snd = gaussianReal 0 v.toNNReal
  corr : ∫ z, z.1 * z.2 ∂N = rho * v

/-- The law of two jointly normal variates of variance `v` and correlation `rho`: they are linear combinations
of two independent ones. -/
def CorrNormal (rho v : ℝ) (N : Measure (ℝ × ℝ)) : Prop :=
  N = ((gaussianReal 0 v.toNNReal).prod (gaussianReal 0 v.toNNReal)).map
    fun z => (z.1, rho * z.1 + √(1 - rho ^ 2) * z.2)

/-- One step of length `h` for the logarithm of `x`, where `dx = mu*x*dt + sigma*x*sqrt(y)*dw_x`, and for `y`,
where `dy = k*(theta - y)*dt + xi*sqrt(y)*dw_y`, given the noise `z = (dw_x, dw_y)`; negative values of `y`
are taken as zero. -/
noncomputable def hestonStep (mu sigma theta k xi h : ℝ) (p z : ℝ × ℝ) : ℝ × ℝ :=
  (p.1 + (mu - sigma ^ 2 * max p.2 0 / 2) * h + sigma * √(max p.2 0) * z.1,
    cirStep theta k xi h p.2 z.2)

/-- Where the item of equation `i`, component `c` and path `q` is found in the working array of a system of
equations for processes of shape `vshape`. -/
def workCell (addaxis : Bool) (vshape : List ℕ) (i : ℕ) (c : List ℕ) (q : ℕ) : List ℕ :=
  if addaxis then c ++ [i, q] else c.dropLast ++ [i * vshape.getLastD 0 + c.getLastD 0, q]

/-- Normal variates of mean zero and covariance matrix `C`. -/
noncomputable def mvnLaw {M : ℕ} (C : Matrix (Fin M) (Fin M) ℝ) : Measure (Fin M → ℝ) :=
  (multivariateGaussian 0 C).map WithLp.ofLp

/-- Asked for multivariate normal variates, the random generator provides independent ones, with the covariance
matrix it is given. -/
def MvnDraws {σ : Type} [MeasurableSpace σ] (μ : Measure σ) (rng : Rng σ) : Prop :=
  ∀ (M : ℕ) (C : Arr ℝ), C.shape = [M, M] → (toMatrix M C).PosSemidef → ∀ size,
    DrawsLaw μ (Measure.pi fun _ : Cells size => mvnLaw (toMatrix M C)) fun s =>
      .ok (fun c (k : Fin M) => (rng.mvn M C size s).1 c k, (rng.mvn M C size s).2)

/-- A `wiener_source` as used in the simulation of a system of equations, at scalar times; items that do not
exist are set to zero. -/
noncomputable def wienerAt {σ : Type} (W : WienerSrc) (rng : Rng σ) : Src ℝ (List ℕ) σ := fun t dt s =>
  match wienerCall W rng (.scalar t) (.scalar dt) s with
  | .error e => .error e
  | .ok (dz, s) => .ok (fun i => if InRange dz.shape i then dz.get i else 0, s)

end Sdepy.Spec
