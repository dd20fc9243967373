import Verif.Spec.Back
import Verif.Spec.StrongNLaw

/-!
# Equations integrated backwards in time, whose sources draw from a random generator
-/

open MeasureTheory ProbabilityTheory

namespace Sdepy.Spec

/-- On the times `D`, from `t0` backwards, the increments of `Z` are independent of all that happened between `t0` and the
time where they start, and `law h` is the law of those over a time interval of length `h`: of `Z(s - h) - Z(s)`. -/
structure IncrementsBack {Ω A : Type} [MeasurableSpace Ω] [MeasurableSpace A] [Sub A] (P : Measure Ω) (t0 : ℝ)
    (D : Set ℝ) (law : ℝ → Measure A) (Z : ℝ → Ω → A) : Prop where
  meas : ∀ u ∈ D, AEMeasurable (Z u) P
  law : ∀ s ∈ D, ∀ t ∈ D, s ≤ t0 → t < s → HasLaw (fun ω => Z t ω - Z s ω) (law (s - t)) P
  indep : ∀ s ∈ D, ∀ t ∈ D, s ≤ t0 → t ≤ s →
    IndepFun (fun ω (u : {u : ℝ // u ∈ D ∧ s ≤ u}) => Z u ω) (fun ω => Z t ω - Z s ω) P

/-- Each source of noise of the equation, other than time, draws its realisations from a random generator, whose state
is distributed as `μ`; `law j h` is the law of those of source `j` over a step backwards of length `h`. -/
def Equation.DrawsNoiseBack {Id σ ι : Type} [LinearOrder Id] [MeasurableSpace σ] (E : Equation ℝ (ι → ℝ) Id σ) (idT : Id)
    (μ : Measure σ) (law : E.Stochastic idT → ℝ → Measure (ι → ℝ)) : Prop :=
  ∀ j t dt, dt ≠ 0 → ∃ ν, DrawsLaw μ ν (E.noise j.1 t dt) ∧ (dt < 0 → ν = law j (-dt))

end Sdepy.Spec
