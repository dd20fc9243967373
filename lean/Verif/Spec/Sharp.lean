import Verif.Spec.Strong

/-!
# Errors of simulations of `dx = c*x*dw`
-/

namespace Sdepy.Spec

/-- The product of `1 + c*(t - s)`, for `s` and `t` consecutive points in a list. -/
def growth (c : ℝ) : List ℝ → ℝ
  | s :: t :: l => (1 + c * (t - s)) * growth c (t :: l)
  | _ => 1

/-- The points of a grid from `t0` to `t`. -/
noncomputable def upTo (grid : List ℝ) (t0 t : ℝ) : List ℝ := grid.filter fun u => t0 ≤ u ∧ u ≤ t

end Sdepy.Spec
