import Verif.Spec.Cov
import Mathlib.Tactic.NoncommRing

/-!
# Covariance of random vectors: lemmas
-/

open MeasureTheory ProbabilityTheory Matrix

namespace Sdepy

open Spec

variable {Ω κ : Type} [MeasurableSpace Ω] [Fintype κ] [DecidableEq κ] {P : Measure Ω}
  [IsProbabilityMeasure P] {X X' Y : Ω → κ → ℝ}

theorem l2_add (hX : L2 P X) (hY : L2 P Y) : L2 P (fun ω => X ω + Y ω) :=
  fun k => (hX k).add (hY k)

theorem l2_mulVec (M : Matrix κ κ ℝ) (hX : L2 P X) : L2 P (fun ω => M *ᵥ X ω) := by
  intro k
  simp only [Matrix.mulVec, dotProduct]
  exact memLp_finsetSum _ fun l _ => (hX l).const_mul (M k l)

theorem l2_const (c : κ → ℝ) : L2 P (fun _ : Ω => c) := fun _ => memLp_const _

theorem covM_swap (X Y : Ω → κ → ℝ) : covM P Y X = (covM P X Y)ᵀ := by
  ext k l
  simp only [covM, Matrix.transpose_apply]
  exact covariance_comm _ _

theorem covM_add_left (hX : L2 P X) (hX' : L2 P X') (hY : L2 P Y) :
    covM P (fun ω => X ω + X' ω) Y = covM P X Y + covM P X' Y := by
  ext k l
  exact covariance_add_left (hX k) (hX' k) (hY l)

theorem covM_add_right (hX : L2 P X) (hX' : L2 P X') (hY : L2 P Y) :
    covM P Y (fun ω => X ω + X' ω) = covM P Y X + covM P Y X' := by
  ext k l
  exact covariance_add_right (hY k) (hX l) (hX' l)

theorem covM_mulVec_left (M : Matrix κ κ ℝ) (hX : L2 P X) (hY : L2 P Y) :
    covM P (fun ω => M *ᵥ X ω) Y = M * covM P X Y := by
  ext k l
  simp only [covM, Matrix.mulVec, dotProduct, Matrix.mul_apply]
  rw [covariance_fun_sum_left (fun j => (hX j).const_mul (M k j)) (hY l)]
  exact Finset.sum_congr rfl fun j _ => covariance_const_mul_left _

theorem covM_mulVec_right (M : Matrix κ κ ℝ) (hX : L2 P X) (hY : L2 P Y) :
    covM P Y (fun ω => M *ᵥ X ω) = covM P Y X * Mᵀ := by
  rw [covM_swap, covM_mulVec_left M hX hY, Matrix.transpose_mul, ← covM_swap]

theorem covM_const_left (c : κ → ℝ) (Y : Ω → κ → ℝ) : covM P (fun _ => c) Y = 0 := by
  ext k l
  exact covariance_const_left _

theorem covM_const_right (c : κ → ℝ) (Y : Ω → κ → ℝ) : covM P Y (fun _ => c) = 0 := by
  ext k l
  exact covariance_const_right _

theorem meanV_add (hX : L2 P X) (hY : L2 P Y) :
    meanV P (fun ω => X ω + Y ω) = meanV P X + meanV P Y := by
  ext k
  exact integral_add ((hX k).integrable (by norm_num)) ((hY k).integrable (by norm_num))

theorem meanV_mulVec (M : Matrix κ κ ℝ) (hX : L2 P X) :
    meanV P (fun ω => M *ᵥ X ω) = M *ᵥ meanV P X := by
  ext k
  simp only [meanV, Matrix.mulVec, dotProduct]
  rw [integral_finsetSum _ fun j _ => ((hX j).integrable (by norm_num)).const_mul (M k j)]
  exact Finset.sum_congr rfl fun j _ => integral_const_mul _ _

theorem meanV_const (c : κ → ℝ) : meanV P (fun _ => c) = c := by
  ext k
  simp [meanV]

end Sdepy
