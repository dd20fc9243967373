import Mathlib.Probability.Moments.Covariance
import Mathlib.LinearAlgebra.Matrix.PosDef

/-!
# Covariance of random vectors
-/

open MeasureTheory ProbabilityTheory Matrix

namespace Sdepy.Spec

variable {Ω κ : Type} [MeasurableSpace Ω]

/-- Components have finite second moment. -/
def L2 (P : Measure Ω) (X : Ω → κ → ℝ) : Prop := ∀ k, MemLp (fun ω => X ω k) 2 P

/-- Matrix of the covariances of the components of two random vectors. -/
noncomputable def covM (P : Measure Ω) (X Y : Ω → κ → ℝ) : Matrix κ κ ℝ :=
  fun k l => cov[fun ω => X ω k, fun ω => Y ω l; P]

/-- Vector of the means. -/
noncomputable def meanV (P : Measure Ω) (X : Ω → κ → ℝ) : κ → ℝ := fun k => ∫ ω, X ω k ∂P

end Sdepy.Spec
