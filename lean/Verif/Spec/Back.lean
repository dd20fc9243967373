import Verif.Spec.StrongN

/-!
# Equations integrated backwards in time
-/

open MeasureTheory ProbabilityTheory

namespace Sdepy.Spec

variable {Ω ι J : Type} [MeasurableSpace Ω] [Fintype ι] [Fintype J]

/-- On the times `D`, from `t0` backwards, the increments of each source `j`, per unit of time elapsed, have mean `m j`
and variance `v j`; the increments of all sources are independent of all that happened between `t0` and the time where
they start. -/
structure NoisesBack (P : Measure Ω) (t0 : ℝ) (D : Set ℝ) (m v : J → ℝ) (Z : ℝ → Ω → J × ι → ℝ) : Prop where
  meas : ∀ u ∈ D, AEMeasurable (Z u) P
  memLp : ∀ s ∈ D, ∀ t ∈ D, s ≤ t0 → t ≤ s → ∀ c, MemLp (fun ω => Z t ω c - Z s ω c) 2 P
  mean : ∀ s ∈ D, ∀ t ∈ D, s ≤ t0 → t ≤ s → ∀ j i, ∫ ω, (Z t ω (j, i) - Z s ω (j, i)) ∂P = m j * (s - t)
  var : ∀ s ∈ D, ∀ t ∈ D, s ≤ t0 → t ≤ s → ∀ j i,
    ∫ ω, (Z t ω (j, i) - Z s ω (j, i) - m j * (s - t)) ^ 2 ∂P = v j * (s - t)
  indep : ∀ s ∈ D, ∀ t ∈ D, s ≤ t0 → t ≤ s →
    IndepFun (fun ω (p : {u : ℝ // u ∈ D ∧ s ≤ u} × (J × ι)) => Z p.1 ω p.2) (fun ω c => Z t ω c - Z s ω c) P

/-- From `t0` backwards, `R` is `x0` plus the sums of
`a(s, Y(s))*(t - s) + sum over j of b(j, s, Y(s))*(Z(j, t) - Z(j, s))`, for `t < s` consecutive points of the grid. -/
structure SumsBack (a : ℝ → (ι → ℝ) → ι → ℝ) (b : J → ℝ → (ι → ℝ) → ι → ℝ) (t0 : ℝ) (x0 : ι → ℝ)
    (grid : List ℝ) (Z : ℝ → Ω → J × ι → ℝ) (Y R : ℝ → Ω → ι → ℝ) : Prop where
  start : ∀ ω, R t0 ω = x0
  step : ∀ s t, StepOf grid t0 s t → s ≤ t0 → t < s → ∀ ω i,
    R t ω i = R s ω i + a s (Y s ω) i * (t - s) + ∑ j, b j s (Y s ω) i * (Z t ω (j, i) - Z s ω (j, i))

/-- `Y` is a solution of `dx = a(t, x)*dt + sum over j of b(j, t, x)*dz(j)`, from the value `x0` at `t0`, for times back to
`t0 - T`: at each time it only depends on the noise realised from then to `t0`; it has finite mean squares; and it equals
`x0` plus the integral, from `t0` backwards to `t`, of `a(s, Y(s))*ds + sum over j of b(j, s, Y(s))*dz(j, s)`, integrals being
limits in mean square, as steps get shorter, of sums where coefficients are taken where each step starts, which is at
its later end. -/
structure SolvesBack (P : Measure Ω) (a : ℝ → (ι → ℝ) → ι → ℝ) (b : J → ℝ → (ι → ℝ) → ι → ℝ) (t0 T : ℝ)
    (x0 : ι → ℝ) (Z : ℝ → Ω → J × ι → ℝ) (Y : ℝ → Ω → ι → ℝ) : Prop where
  known : ∀ t ∈ Set.Icc (t0 - T) t0, ∃ g : ({u : ℝ // u ∈ Set.Icc (t0 - T) t0 ∧ t ≤ u} × (J × ι) → ℝ) → ι → ℝ,
    Measurable g ∧ ∀ ω, Y t ω = g fun p => Z p.1 ω p.2
  memLp : ∀ t ∈ Set.Icc (t0 - T) t0, ∀ i, MemLp (fun ω => Y t ω i) 2 P
  integral : ∀ ε > 0, ∃ δ > 0, ∀ (grid : List ℝ) (R : ℝ → Ω → ι → ℝ), grid.Pairwise (· < ·) → t0 ∈ grid →
    (∀ u ∈ grid, u ∈ Set.Icc (t0 - T) t0) → Mesh grid δ → SumsBack a b t0 x0 grid Z Y R →
    ∀ t ∈ grid, meanSq P (fun ω i => Y t ω i - R t ω i) ≤ ε

end Sdepy.Spec
