import Verif.Spec.WienerLaw
import Mathlib.Analysis.SpecialFunctions.Exp

/-!
# Moments of the Euler scheme for Ornstein-Uhlenbeck processes
-/

open MeasureTheory ProbabilityTheory Matrix

namespace Sdepy.Spec

/-- Mean, after steps ending at given times, of the solution of `dx = k(t)*(theta(t) - x)*dt + ...`
that starts at `t` with mean `m`: each step of length `u - t` adds `k*(theta - m)*(u - t)`. -/
noncomputable def eulerMean (theta k : ℝ → ℝ) : ℝ → ℝ → List ℝ → ℝ
  | _, m, [] => m
  | t, m, u :: l => eulerMean theta k u (m + k t * (theta t - m) * (u - t)) l

/-- Covariance of two such solutions, with mean reversion rates `ka`, `kb`, and volatilities `sa`, `sb`
of noises with correlation `r`: each step of length `d = u - t` multiplies it by
`(1 - ka*d)*(1 - kb*d)`, and adds the covariance of the noises. -/
noncomputable def eulerCov (ka kb sa sb r : ℝ → ℝ) : ℝ → ℝ → List ℝ → ℝ
  | _, c, [] => c
  | t, c, u :: l => eulerCov ka kb sa sb r u
      ((1 - ka t * (u - t)) * (1 - kb t * (u - t)) * c + sa t * sb t * r ((t + u) / 2) * |u - t|) l

/-- The ends of the steps made on a grid from `t0` to `t`, in the order they are made. -/
noncomputable def stepsTo (grid : List ℝ) (t0 t : ℝ) : List ℝ :=
  if t0 ≤ t then grid.filter (fun u => t0 < u ∧ u ≤ t)
  else (grid.filter (fun u => t ≤ u ∧ u < t0)).reverse

/-- No step of the grid is longer than `δ`. -/
def Mesh (grid : List ℝ) (δ : ℝ) : Prop :=
  ∀ a ∈ grid, ∀ b ∈ grid, a < b → (∀ c ∈ grid, ¬ (a < c ∧ c < b)) → b - a ≤ δ

/-- Mean of the sum of Ornstein-Uhlenbeck processes with given parameters, after a time `t`. -/
noncomputable def ouSumMean {ξ : Type} (s : Finset ξ) (x0 theta k : ξ → ℝ) (t : ℝ) : ℝ :=
  ∑ f ∈ s, (theta f - Real.exp (-k f * t) * (theta f - x0 f))

/-- Variance of the sum of Ornstein-Uhlenbeck processes driven by noises with correlations `r`. -/
noncomputable def ouSumVar {ξ : Type} (s : Finset ξ) (k sigma : ξ → ℝ) (r : ξ → ξ → ℝ) (t : ℝ) : ℝ :=
  ∑ a ∈ s, ∑ b ∈ s, sigma a * sigma b * r a b / (k a + k b) * (1 - Real.exp (-(k a + k b) * t))

variable {Ω ι κ : Type} [MeasurableSpace Ω]

/-- On the set of times `D`, the values `X` simulated from `x0` at `t0` are jointly Gaussian, with the
moments of the Euler scheme on `grid`, and independent along `ι`. -/
structure IsEulerOU [DecidableEq ι] (P : Measure Ω) (theta k sigma : ℝ → ι × κ → ℝ)
    (C : ℝ → Matrix κ κ ℝ) (t0 : ℝ) (x0 : ι × κ → ℝ) (grid : List ℝ) (D : Set ℝ)
    (X : ℝ → Ω → ι × κ → ℝ) : Prop where
  start : ∀ ω, X t0 ω = x0
  gauss : IsGaussianProcess (fun (p : D × ι × κ) ω => X p.1 ω p.2) P
  mean : ∀ t ∈ D, ∀ c, ∫ ω, X t ω c ∂P =
    eulerMean (fun u => theta u c) (fun u => k u c) t0 (x0 c) (stepsTo grid t0 t)
  cov : ∀ t ∈ D, ∀ i j a b, cov[fun ω => X t ω (i, a), fun ω => X t ω (j, b); P] =
    if i = j then eulerCov (fun u => k u (i, a)) (fun u => k u (i, b)) (fun u => sigma u (i, a))
      (fun u => sigma u (i, b)) (fun u => C u a b) t0 0 (stepsTo grid t0 t) else 0

end Sdepy.Spec
