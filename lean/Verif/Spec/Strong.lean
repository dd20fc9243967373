import Verif.Spec.Chain
import Verif.Spec.OuLaw

/-!
# Convergence in mean square of simulated values
-/

open MeasureTheory ProbabilityTheory

namespace Sdepy.Spec

variable {Ω ι : Type} [MeasurableSpace Ω] [Fintype ι]

/-- Mean square of random values, summed over cells. -/
noncomputable def meanSq (P : Measure Ω) (X : Ω → ι → ℝ) : ℝ := ∑ i, ∫ ω, X ω i ^ 2 ∂P

/-- The coefficients of `dx = a(t, x)*dt + b(t, x)*dw` are Lipschitz functions of `x`, and depend on time
regularly enough, for times from `t0` to `t0 + T`. -/
def LipschitzCoef (a b : ℝ → (ι → ℝ) → ι → ℝ) (t0 T L : ℝ) : Prop :=
  ∀ t ∈ Set.Icc t0 (t0 + T), ∀ u ∈ Set.Icc t0 (t0 + T), ∀ x y,
    ∑ i, ((a t x i - a u y i) ^ 2 + (b t x i - b u y i) ^ 2) ≤
      L * (∑ i, (x i - y i) ^ 2 + (1 + ∑ i, x i ^ 2) * |t - u|)

/-- On the times `D`, from `t0` on, the increments of `W` have mean zero, and variance equal to the time
elapsed; they are independent of all that happened before. -/
structure Drives (P : Measure Ω) (t0 : ℝ) (D : Set ℝ) (W : ℝ → Ω → ι → ℝ) : Prop where
  meas : ∀ u ∈ D, AEMeasurable (W u) P
  memLp : ∀ s ∈ D, ∀ t ∈ D, t0 ≤ s → s ≤ t → ∀ i, MemLp (fun ω => W t ω i - W s ω i) 2 P
  mean : ∀ s ∈ D, ∀ t ∈ D, t0 ≤ s → s ≤ t → ∀ i, ∫ ω, (W t ω i - W s ω i) ∂P = 0
  var : ∀ s ∈ D, ∀ t ∈ D, t0 ≤ s → s ≤ t → ∀ i, ∫ ω, (W t ω i - W s ω i) ^ 2 ∂P = t - s
  indep : ∀ s ∈ D, ∀ t ∈ D, t0 ≤ s → s ≤ t →
    IndepFun (fun ω (p : {u : ℝ // u ∈ D ∧ u ≤ s} × ι) => W p.1 ω p.2) (fun ω i => W t ω i - W s ω i) P

/-- From `t0` on, the values `X` are those of the Euler scheme along the grid, for
`dx = a(t, x)*dt + b(t, x)*dw`, driven by the increments of `W`. -/
structure IsScheme (a b : ℝ → (ι → ℝ) → ι → ℝ) (t0 : ℝ) (x0 : ι → ℝ) (grid : List ℝ)
    (W X : ℝ → Ω → ι → ℝ) : Prop where
  start : ∀ ω, X t0 ω = x0
  step : ∀ s t, StepOf grid t0 s t → t0 ≤ s → s < t → ∀ ω i,
    X t ω i = X s ω i + a s (X s ω) i * (t - s) + b s (X s ω) i * (W t ω i - W s ω i)

/-- `Y` only depends on the values of `W`, at times in `D`, up to time `u`. -/
def KnownAt {C : Type} [MeasurableSpace C] (D : Set ℝ) (W : ℝ → Ω → ι → ℝ) (u : ℝ) (Y : Ω → C) : Prop :=
  ∃ g : ({v : ℝ // v ∈ D ∧ v ≤ u} × ι → ℝ) → C, Measurable g ∧ ∀ ω, Y ω = g fun p => W p.1 ω p.2

/-- From `t0` on, `R` is `x0` plus the sums of `a(s, Y(s))*(t - s) + b(s, Y(s))*(W(t) - W(s))`, for `s` and `t`
consecutive points of the grid. -/
structure IsSums (a b : ℝ → (ι → ℝ) → ι → ℝ) (t0 : ℝ) (x0 : ι → ℝ) (grid : List ℝ)
    (W Y R : ℝ → Ω → ι → ℝ) : Prop where
  start : ∀ ω, R t0 ω = x0
  step : ∀ s t, StepOf grid t0 s t → t0 ≤ s → s < t → ∀ ω i,
    R t ω i = R s ω i + a s (Y s ω) i * (t - s) + b s (Y s ω) i * (W t ω i - W s ω i)

/-- `Y` is a solution of `dx = a(t, x)*dt + b(t, x)*dw`, from the value `x0` at `t0`, for times up to `t0 + T`: at each
time it only depends on the noise realised so far; it has finite mean squares; and it equals `x0` plus the integral of
`a(s, Y(s))*ds + b(s, Y(s))*dW(s)` from `t0` to `t`, integrals being limits in mean square, as steps get shorter, of
sums where coefficients are taken at the start of each step. -/
structure IsSolution (P : Measure Ω) (a b : ℝ → (ι → ℝ) → ι → ℝ) (t0 T : ℝ) (x0 : ι → ℝ)
    (W Y : ℝ → Ω → ι → ℝ) : Prop where
  known : ∀ t ∈ Set.Icc t0 (t0 + T), KnownAt (Set.Icc t0 (t0 + T)) W t (Y t)
  memLp : ∀ t ∈ Set.Icc t0 (t0 + T), ∀ i, MemLp (fun ω => Y t ω i) 2 P
  integral : ∀ ε > 0, ∃ δ > 0, ∀ (grid : List ℝ) (R : ℝ → Ω → ι → ℝ), grid.Pairwise (· < ·) → t0 ∈ grid →
    (∀ u ∈ grid, u ∈ Set.Icc t0 (t0 + T)) → Mesh grid δ → IsSums a b t0 x0 grid W Y R →
    ∀ t ∈ grid, meanSq P (fun ω i => Y t ω i - R t ω i) ≤ ε

end Sdepy.Spec
