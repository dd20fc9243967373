import Verif.Spec.Means

/-!
# Variances of simulated values
-/

open MeasureTheory

namespace Sdepy.Spec

variable {Ω ι J : Type} [MeasurableSpace Ω] [Fintype ι] [Fintype J]

/-- On the times `D`, from `t0` on, the increments that different sources of noise, with means `m` per unit of time,
have in the same cell, are uncorrelated. -/
def UncorrelatedNoise (P : Measure Ω) (t0 : ℝ) (D : Set ℝ) (m : J → ℝ) (Z : ℝ → Ω → J × ι → ℝ) : Prop :=
  ∀ s ∈ D, ∀ t ∈ D, t0 ≤ s → s ≤ t → ∀ j k, j ≠ k → ∀ i,
    ∫ ω, (Z t ω (j, i) - Z s ω (j, i) - m j * (t - s)) * (Z t ω (k, i) - Z s ω (k, i) - m k * (t - s)) ∂P = 0

/-- For times from `t0` to `t0 + T`: the drift of each cell, once increments of noise are replaced by their means, is
`p + q*x`, with `x` the value of that cell, and the variance per unit of time of its noise is `r + n*x + w*x**2`. -/
structure CellMoments (a : ℝ → (ι → ℝ) → ι → ℝ) (b : J → ℝ → (ι → ℝ) → ι → ℝ) (m v : J → ℝ) (t0 T : ℝ)
    (p q r n w : ℝ → ι → ℝ) : Prop where
  drift : ∀ t ∈ Set.Icc t0 (t0 + T), ∀ x i, meanDrift a b m t x i = p t i + q t i * x i
  noise : ∀ t ∈ Set.Icc t0 (t0 + T), ∀ x i, ∑ j, v j * b j t x i ^ 2 = r t i + n t i * x i + w t i * x i ^ 2

/-- The time derivatives of the mean (on the left) and of the mean square (on the right) of each cell, if its drift is
`p + q*x` and the variance per unit of time of its noise is `r + n*x + w*x**2`. -/
def momentField (p q r n w : ℝ → ι → ℝ) (t : ℝ) (z : ι ⊕ ι → ℝ) : ι ⊕ ι → ℝ
  | .inl i => p t i + q t i * z (.inl i)
  | .inr i => 2 * (p t i * z (.inl i) + q t i * z (.inr i)) + (r t i + n t i * z (.inl i) + w t i * z (.inr i))

/-- On the times `D`, from `t0` backwards, the increments that different sources of noise, with means `m` per unit of time
elapsed, have in the same cell, are uncorrelated. -/
def UncorrelatedBack (P : Measure Ω) (t0 : ℝ) (D : Set ℝ) (m : J → ℝ) (Z : ℝ → Ω → J × ι → ℝ) : Prop :=
  ∀ s ∈ D, ∀ t ∈ D, s ≤ t0 → t ≤ s → ∀ j k, j ≠ k → ∀ i,
    ∫ ω, (Z t ω (j, i) - Z s ω (j, i) - m j * (s - t)) * (Z t ω (k, i) - Z s ω (k, i) - m k * (s - t)) ∂P = 0

/-- For times from `t0` back to `t0 - T`: the change of each cell per unit of time elapsed, once increments of noise are
replaced by their means, is `p + q*x`, with `x` the value of that cell, and the variance per unit of time of its noise
is `r + n*x + w*x**2`. -/
structure CellMomentsBack (a : ℝ → (ι → ℝ) → ι → ℝ) (b : J → ℝ → (ι → ℝ) → ι → ℝ) (m v : J → ℝ) (t0 T : ℝ)
    (p q r n w : ℝ → ι → ℝ) : Prop where
  drift : ∀ t ∈ Set.Icc (t0 - T) t0, ∀ x i, -a t x i + ∑ j, m j * b j t x i = p t i + q t i * x i
  noise : ∀ t ∈ Set.Icc (t0 - T) t0, ∀ x i, ∑ j, v j * b j t x i ^ 2 = r t i + n t i * x i + w t i * x i ^ 2

end Sdepy.Spec
