import Verif.Spec.Wiener
import Verif.Model.Presets
import Mathlib.Probability.Distributions.Gaussian.IsGaussianProcess.Def

/-!
# The law of a Wiener process
-/

open MeasureTheory ProbabilityTheory Matrix

namespace Sdepy.Spec

variable {Ω ι κ : Type} [MeasurableSpace Ω]

/-- All the variates that the random generator may return are jointly Gaussian. -/
def JointlyGaussian (P : Measure Ω) (N : ℕ → Matrix κ κ ℝ → Ω → ι → κ → ℝ) : Prop :=
  IsGaussianProcess (fun (p : ℕ × Matrix κ κ ℝ × ι × κ) ω => N p.1 p.2.1 ω p.2.2.1 p.2.2.2) P

/-- So are the draws of a source. -/
def GaussianDraws (P : Measure Ω) (G : ℕ → Matrix κ κ ℝ → ℝ → ℝ → Ω → ι → κ → ℝ) : Prop :=
  IsGaussianProcess (fun (p : ℕ × Matrix κ κ ℝ × ℝ × ℝ × ι × κ) ω =>
    G p.1 p.2.1 p.2.2.1 p.2.2.2.1 ω p.2.2.2.2.1 p.2.2.2.2.2) P

/-- On the set of times `D`, `W` has the law of a Wiener process that starts at `t0` in both
directions from the value `z0`, has correlations along `κ` that integrate to `F`, and independent
components along `ι`. -/
structure IsWienerProcess [DecidableEq ι] (P : Measure Ω) (F : ℝ → Matrix κ κ ℝ) (t0 : ℝ)
    (z0 : ι → κ → ℝ) (D : Set ℝ) (W : ℝ → Ω → ι → κ → ℝ) : Prop where
  start : ∀ ω, W t0 ω = z0
  gauss : IsGaussianProcess (fun (p : D × ι × κ) ω => W p.1 ω p.2.1 p.2.2) P
  mean : ∀ u ∈ D, ∀ i k, ∫ ω, W u ω i k ∂P = z0 i k
  cov : ∀ u ∈ D, ∀ v ∈ D, ∀ i j k l, cov[fun ω => W u ω i k, fun ω => W v ω j l; P] =
    if i = j then wienerCov F t0 u v k l else 0

/-- A source of increments: for a step from `t` to `t + dt`, with the correlation matrix in the middle of
the step, the `n`-th draw of `G`. -/
noncomputable def noise (G : ℕ → Matrix κ κ ℝ → ℝ → ℝ → Ω → ι → κ → ℝ) (C : ℝ → Matrix κ κ ℝ) :
    Src ℝ (ι × κ) (Ω × ℕ) :=
  fun t dt s => .ok (fun c => G s.2 (C (t + dt / 2)) t dt s.1 c.1 c.2, (s.1, s.2 + 1))

end Sdepy.Spec
