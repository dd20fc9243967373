import Verif.Spec.StrongN
import Mathlib.Algebra.Module.LinearMap.Defs

/-!
# Equations with additive noise
-/

namespace Sdepy.Spec

variable {ι J : Type} [Fintype ι] [Fintype J]

/-- The equation `dx = a(t, x)*dt + sum over j of b(j, t)*dz(j)`, where coefficients of noise do not depend on `x`:
for times from `t0` to `t0 + T`, all coefficients are Lipschitz functions, and the drift is approximated by linear
functions of `x`, up to terms of the second order. -/
structure AdditiveNoise (a : ℝ → (ι → ℝ) → ι → ℝ) (b : J → ℝ → ι → ℝ) (t0 T L : ℝ) : Prop where
  drift : ∀ t ∈ Set.Icc t0 (t0 + T), ∀ u ∈ Set.Icc t0 (t0 + T), ∀ x y,
    ∑ i, (a t x i - a u y i) ^ 2 ≤ L * (∑ i, (x i - y i) ^ 2 + (1 + ∑ i, x i ^ 2) * (t - u) ^ 2)
  noise : ∀ t ∈ Set.Icc t0 (t0 + T), ∀ u ∈ Set.Icc t0 (t0 + T),
    ∑ i, ∑ j, (b j t i - b j u i) ^ 2 ≤ L * (t - u) ^ 2
  smooth : ∀ t ∈ Set.Icc t0 (t0 + T), ∀ x, ∃ A : (ι → ℝ) →ₗ[ℝ] (ι → ℝ), ∀ z,
    ∑ i, (a t (x + z) i - a t x i - A z i) ^ 2 ≤ L * (∑ i, z i ^ 2) ^ 2

end Sdepy.Spec
