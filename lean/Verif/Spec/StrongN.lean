import Verif.Spec.Strong
import Verif.Spec.SDE
import Verif.Spec.Presets

/-!
# Equations with more than one source of noise: convergence in mean square
-/

open MeasureTheory ProbabilityTheory

namespace Sdepy.Spec

section
variable {Ω ι J : Type} [MeasurableSpace Ω] [Fintype ι] [Fintype J]

/-- The coefficients of `dx = a(t, x)*dt + sum over j of b(j, t, x)*dz(j)` are Lipschitz functions of `x`, and depend
on time regularly enough, for times from `t0` to `t0 + T`. -/
def LipschitzCoefs (a : ℝ → (ι → ℝ) → ι → ℝ) (b : J → ℝ → (ι → ℝ) → ι → ℝ) (t0 T L : ℝ) : Prop :=
  ∀ t ∈ Set.Icc t0 (t0 + T), ∀ u ∈ Set.Icc t0 (t0 + T), ∀ x y,
    ∑ i, ((a t x i - a u y i) ^ 2 + ∑ j, (b j t x i - b j u y i) ^ 2) ≤
      L * (∑ i, (x i - y i) ^ 2 + (1 + ∑ i, x i ^ 2) * |t - u|)

/-- On the times `D`, from `t0` on, the increments of each source `j`, per unit of time, have mean `m j` and
variance `v j`; the increments of all sources are independent of all that happened before. -/
structure Noises (P : Measure Ω) (t0 : ℝ) (D : Set ℝ) (m v : J → ℝ) (Z : ℝ → Ω → J × ι → ℝ) : Prop where
  meas : ∀ u ∈ D, AEMeasurable (Z u) P
  memLp : ∀ s ∈ D, ∀ t ∈ D, t0 ≤ s → s ≤ t → ∀ c, MemLp (fun ω => Z t ω c - Z s ω c) 2 P
  mean : ∀ s ∈ D, ∀ t ∈ D, t0 ≤ s → s ≤ t → ∀ j i, ∫ ω, (Z t ω (j, i) - Z s ω (j, i)) ∂P = m j * (t - s)
  var : ∀ s ∈ D, ∀ t ∈ D, t0 ≤ s → s ≤ t → ∀ j i,
    ∫ ω, (Z t ω (j, i) - Z s ω (j, i) - m j * (t - s)) ^ 2 ∂P = v j * (t - s)
  indep : ∀ s ∈ D, ∀ t ∈ D, t0 ≤ s → s ≤ t →
    IndepFun (fun ω (p : {u : ℝ // u ∈ D ∧ u ≤ s} × (J × ι)) => Z p.1 ω p.2) (fun ω c => Z t ω c - Z s ω c) P

/-- On the times `D`, from `t0` on, the increments of `Z` are independent of all that happened before, and `law h` is the
law of those over a time interval of length `h`. -/
structure Increments {A : Type} [MeasurableSpace A] [Sub A] (P : Measure Ω) (t0 : ℝ) (D : Set ℝ) (law : ℝ → Measure A)
    (Z : ℝ → Ω → A) : Prop where
  meas : ∀ u ∈ D, AEMeasurable (Z u) P
  law : ∀ s ∈ D, ∀ t ∈ D, t0 ≤ s → s < t → HasLaw (fun ω => Z t ω - Z s ω) (law (t - s)) P
  indep : ∀ s ∈ D, ∀ t ∈ D, t0 ≤ s → s ≤ t →
    IndepFun (fun ω (u : {u : ℝ // u ∈ D ∧ u ≤ s}) => Z u ω) (fun ω => Z t ω - Z s ω) P

/-- Variates of law `law h`, whatever `h`, have mean `m*h` and variance `v*h`. -/
def HasMoments (law : ℝ → Measure (ι → ℝ)) (m v : ℝ) : Prop :=
  ∀ h > 0, ∀ i, MemLp (fun x : ι → ℝ => x i) 2 (law h) ∧ ∫ x : ι → ℝ, x i ∂law h = m * h ∧
    ∫ x : ι → ℝ, (x i - m * h) ^ 2 ∂law h = v * h

/-- From `t0` on, `R` is `x0` plus the sums of `a(s, Y(s))*(t - s) + sum over j of b(j, s, Y(s))*(Z(j, t) - Z(j, s))`,
for `s` and `t` consecutive points of the grid. -/
structure AreSums (a : ℝ → (ι → ℝ) → ι → ℝ) (b : J → ℝ → (ι → ℝ) → ι → ℝ) (t0 : ℝ) (x0 : ι → ℝ)
    (grid : List ℝ) (Z : ℝ → Ω → J × ι → ℝ) (Y R : ℝ → Ω → ι → ℝ) : Prop where
  start : ∀ ω, R t0 ω = x0
  step : ∀ s t, StepOf grid t0 s t → t0 ≤ s → s < t → ∀ ω i,
    R t ω i = R s ω i + a s (Y s ω) i * (t - s) + ∑ j, b j s (Y s ω) i * (Z t ω (j, i) - Z s ω (j, i))

/-- `Y` is a solution of `dx = a(t, x)*dt + sum over j of b(j, t, x)*dz(j)`, from the value `x0` at `t0`, for times up to
`t0 + T`: at each time it only depends on the noise realised so far; it has finite mean squares; and it equals `x0`
plus the integral, from `t0` to `t`, of `a(s, Y(s))*ds + sum over j of b(j, s, Y(s))*dz(j, s)`, integrals being limits in
mean square, as steps get shorter, of sums where coefficients are taken at the start of each step. -/
structure Solves (P : Measure Ω) (a : ℝ → (ι → ℝ) → ι → ℝ) (b : J → ℝ → (ι → ℝ) → ι → ℝ) (t0 T : ℝ) (x0 : ι → ℝ)
    (Z : ℝ → Ω → J × ι → ℝ) (Y : ℝ → Ω → ι → ℝ) : Prop where
  known : ∀ t ∈ Set.Icc t0 (t0 + T), KnownAt (Set.Icc t0 (t0 + T)) Z t (Y t)
  memLp : ∀ t ∈ Set.Icc t0 (t0 + T), ∀ i, MemLp (fun ω => Y t ω i) 2 P
  integral : ∀ ε > 0, ∃ δ > 0, ∀ (grid : List ℝ) (R : ℝ → Ω → ι → ℝ), grid.Pairwise (· < ·) → t0 ∈ grid →
    (∀ u ∈ grid, u ∈ Set.Icc t0 (t0 + T)) → Mesh grid δ → AreSums a b t0 x0 grid Z Y R →
    ∀ t ∈ grid, meanSq P (fun ω i => Y t ω i - R t ω i) ≤ ε

end

/-- All the sources of noise of an equation, realised together. -/
def Equation.realised {T X Id σ : Type} [LinearOrder Id] [Zero X] (E : Equation T X Id σ) (t dt : T) (s : σ) :
    Py ((Id → X) × σ) := realise E.noise t dt (E.ids.sort (· ≤ ·)) s

/-- The sources of noise of an equation, other than time. -/
abbrev Equation.Stochastic {T X Id σ : Type} [LinearOrder Id] (E : Equation T X Id σ) (idT : Id) : Type :=
  {id // id ∈ E.ids.erase idT}

/-- Along the grid, from the states `s` of the sources, the noise of the equation, realised and added up from `t0`
on, is `Z`. -/
def RealisesAll {Ω Id σ ι : Type} [LinearOrder Id] (E : Equation ℝ (ι → ℝ) Id σ) (idT : Id) (t0 : ℝ)
    (grid : List ℝ) (Z : ℝ → Ω → E.Stochastic idT × ι → ℝ) (s s' : Ω → σ) : Prop :=
  ∀ ω, ∃ V : ℝ → Id → ι → ℝ, cumulated E.realised t0 grid (s ω) = .ok (grid.map fun u => (u, V u), s' ω) ∧
    ∀ u ∈ grid, ∀ j i, V u j.1 i = Z u ω (j, i) - Z t0 ω (j, i)

end Sdepy.Spec
