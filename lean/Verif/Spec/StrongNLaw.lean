import Verif.Spec.StrongN
import Verif.Spec.Levy

/-!
# Equations whose sources draw from a random generator
-/

open MeasureTheory ProbabilityTheory

namespace Sdepy.Spec

/-- Each source of noise of the equation, other than time, draws its realisations from a random generator, whose state
is distributed as `μ`; `law j h` is the law of those of source `j` over a step forward of length `h`. -/
def Equation.DrawsNoise {Id σ ι : Type} [LinearOrder Id] [MeasurableSpace σ] (E : Equation ℝ (ι → ℝ) Id σ) (idT : Id)
    (μ : Measure σ) (law : E.Stochastic idT → ℝ → Measure (ι → ℝ)) : Prop :=
  ∀ j t dt, dt ≠ 0 → ∃ ν, DrawsLaw μ ν (E.noise j.1 t dt) ∧ (0 < dt → ν = law j dt)

/-- The increments over a time `h` of a Wiener process, or, for the source `idJ`, of a compound Poisson process with `l`
jumps per unit of time, in the mean, of law `ν`; all components are independent. -/
noncomputable def jumpNoise {Id ι : Type} [DecidableEq Id] [Fintype ι] {J : Finset Id} (idJ : Id) (l : ℝ)
    (ν : Measure ℝ) (j : J) (h : ℝ) : Measure (ι → ℝ) :=
  Measure.pi fun _ => if j.1 = idJ then compoundPoisson (l * h) ν else gaussianReal 0 h.toNNReal

end Sdepy.Spec
