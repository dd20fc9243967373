import Verif.Spec.Levy
import Mathlib.Analysis.SpecialFunctions.Sqrt

/-!
# Values that are simulated one step after the other
-/

open MeasureTheory ProbabilityTheory

namespace Sdepy.Spec

variable {σ C B : Type}

/-- One step of an integration from `t0` on a grid: from `a` to the next point of the grid, `b`, going
away from `t0`. -/
def StepOf (grid : List ℝ) (t0 a b : ℝ) : Prop :=
  a ∈ grid ∧ b ∈ grid ∧ ((t0 ≤ a ∧ a < b ∧ ∀ c ∈ grid, ¬ (a < c ∧ c < b)) ∨
    (a ≤ t0 ∧ b < a ∧ ∀ c ∈ grid, ¬ (b < c ∧ c < a)))

/-- The values `Y`, that start from `y0` at `t0`, are those of a recursion `y(b) = f(a, b, y(a), z)`
along the grid, where `z`, the noise realised for the step from `a` to `b`, has law `N a (b - a)`, and is
independent of `y(a)`. -/
structure IsRecursion [MeasurableSpace σ] [MeasurableSpace C] [MeasurableSpace B] (μ : Measure σ)
    (N : ℝ → ℝ → Measure B) (f : ℝ → ℝ → C → B → C) (t0 : ℝ) (y0 : C) (grid : List ℝ)
    (Y : ℝ → σ → C) : Prop where
  start : ∀ s, Y t0 s = y0
  meas : ∀ u ∈ grid, Measurable (Y u)
  step : ∀ a b, StepOf grid t0 a b → ∃ Z : σ → B, Measurable Z ∧ HasLaw Z (N a (b - a)) μ ∧
    IndepFun (Y a) Z μ ∧ ∀ s, Y b s = f a b (Y a s) (Z s)

/-- One step of length `h` for `dy = k*(theta - y)*dt + xi*sqrt(y)*dw`, given the noise `z`; negative
values of `y` are taken as zero. -/
noncomputable def cirStep (theta k xi h y z : ℝ) : ℝ :=
  y + k * (theta - max y 0) * h + xi * √(max y 0) * z

end Sdepy.Spec
