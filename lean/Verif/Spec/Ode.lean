import Mathlib.Analysis.Calculus.Deriv.Basic
import Mathlib.Analysis.Normed.Group.Constructions
import Verif.Spec.Chain

/-!
# Equations with no noise: solutions of ordinary differential equations
-/

namespace Sdepy.Spec

variable {ι : Type} [Fintype ι]

/-- The coefficient of `dx = a(t, x)*dt` is a Lipschitz function of `x` and depends on time regularly enough, for times
within `T` of `t0`; norms are largest absolute values of components. -/
def LipschitzField (a : ℝ → (ι → ℝ) → ι → ℝ) (t0 T L : ℝ) : Prop :=
  ∀ t ∈ Set.Icc (t0 - T) (t0 + T), ∀ u ∈ Set.Icc (t0 - T) (t0 + T), ∀ x y,
    ‖a t x - a u y‖ ≤ L * (‖x - y‖ + (1 + ‖x‖) * |t - u|)

/-- `y` is a solution of `dx = a(t, x)*dt`, from the value `x0` at `t0`, for times within `T` of `t0`. -/
structure SolvesOde (a : ℝ → (ι → ℝ) → ι → ℝ) (t0 T : ℝ) (x0 : ι → ℝ) (y : ℝ → ι → ℝ) : Prop where
  start : y t0 = x0
  deriv : ∀ t ∈ Set.Icc (t0 - T) (t0 + T), HasDerivWithinAt y (a t (y t)) (Set.Icc (t0 - T) (t0 + T)) t

/-- `X` are the values, from `x0` at `t0`, of the Euler method along a grid, forwards and backwards from `t0`. -/
def EulerOde (a : ℝ → (ι → ℝ) → ι → ℝ) (t0 : ℝ) (x0 : ι → ℝ) (grid : List ℝ) (X : ℝ → ι → ℝ) : Prop :=
  X t0 = x0 ∧ ∀ s t, StepOf grid t0 s t → X t = X s + (t - s) • a s (X s)

end Sdepy.Spec
