import Verif.Spec.StrongN

/-!
# Means of simulated values
-/

namespace Sdepy.Spec

variable {ι J : Type} [Fintype ι] [Fintype J]

/-- The drift of `dx = a(t, x)*dt + sum over j of b(j, t, x)*dz(j)`, if each increment `dz(j)` is replaced by
its mean `m(j)*dt`. -/
def meanDrift (a : ℝ → (ι → ℝ) → ι → ℝ) (b : J → ℝ → (ι → ℝ) → ι → ℝ) (m : J → ℝ) (t : ℝ) (x : ι → ℝ) (i : ι) : ℝ :=
  a t x i + ∑ j, m j * b j t x i

/-- Constants, plus linear combinations of components. -/
def IsAffineIn (f : (ι → ℝ) → ι → ℝ) : Prop :=
  ∃ (p : ι → ℝ) (q : ι → ι → ℝ), ∀ x i, f x i = p i + ∑ k, q i k * x k

end Sdepy.Spec
