import Verif.Spec.Antithetic
import Verif.Spec.EstimatesN

/-!
# Laws of antithetic noise
-/

open MeasureTheory

namespace Sdepy.Spec

/-- The law of noise along `2*n` paths: along the first `n` it is independent, with law `ν` along each; along the others
it is the opposite. -/
noncomputable def antitheticLaw {κ : Type} (n : ℕ) (ν : Measure (κ → ℝ)) : Measure (Fin (2 * n) × κ → ℝ) :=
  (Measure.pi fun _ : Fin n => ν).map fun z c =>
    if h : c.1.1 < n then z ⟨c.1, h⟩ c.2 else -z ⟨c.1 - n, by omega⟩ c.2

/-- The opposite has the same law. -/
def SymmetricLaw {κ : Type} (ν : Measure (κ → ℝ)) : Prop := ν.map (fun z k => -z k) = ν

end Sdepy.Spec
