import Verif.Lemmas.Isonormal
import Mathlib.MeasureTheory.Function.ConvergenceInDistribution

/-!
# Laws of Euler schemes driven by noises with the same law
-/

set_option linter.unusedSectionVars false

open MeasureTheory ProbabilityTheory Filter Topology

namespace Sdepy

open Spec

/-! ### Gaussian families with the same moments -/

theorem gauss_pi {T Ω : Type} [Fintype T] [MeasurableSpace Ω] {P : Measure Ω} {X : T → Ω → ℝ}
    (hX : IsGaussianProcess X P) : HasGaussianLaw (fun ω t => X t ω) P := by
  classical
  exact (hX.hasGaussianLaw Finset.univ).map_fun
    (ContinuousLinearMap.pi fun t : T => (ContinuousLinearMap.proj (R := ℝ)
      (φ := fun _ : (Finset.univ : Finset T) => ℝ) ⟨t, Finset.mem_univ t⟩))

theorem gauss_chf {T Ω : Type} [Fintype T] [DecidableEq T] [MeasurableSpace Ω] {P : Measure Ω} {X : T → Ω → ℝ}
    (hX : IsGaussianProcess X P) (L : StrongDual ℝ (T → ℝ)) :
    charFunDual (P.map fun ω t => X t ω) L = Complex.exp (((∑ t, L (Pi.single t 1) * ∫ ω, X t ω ∂P : ℝ) : ℂ) * Complex.I -
      ((∑ s, ∑ t, L (Pi.single s 1) * (L (Pi.single t 1) * cov[X s, X t; P]) : ℝ) : ℂ) / 2) := by
  have := hX.isProbabilityMeasure
  have hg := gauss_pi hX
  have hml : ∀ t, MemLp (X t) 2 P := fun t => (hX.hasGaussianLaw_eval t).memLp_two
  have hL : ∀ x : T → ℝ, L x = ∑ t, L (Pi.single t 1) * x t := by
    intro x
    conv_lhs => rw [← Finset.univ_sum_single x]
    rw [map_sum]
    refine Finset.sum_congr rfl fun t _ => ?_
    have : Pi.single t (x t) = x t • (Pi.single t 1 : T → ℝ) := by
      rw [← Pi.single_smul, smul_eq_mul, mul_one]
    rw [this, map_smul, smul_eq_mul, mul_comm]
  have e : (L ∘ fun ω t => X t ω) = fun ω => ∑ t, L (Pi.single t 1) * X t ω := by
    funext ω
    exact hL _
  have hmc : ∀ t, MemLp (fun ω => L (Pi.single t 1) * X t ω) 2 P := fun t => (hml t).const_mul _
  rw [hg.charFunDual_map_eq, e]
  congr 3
  · congr 1
    rw [integral_finsetSum _ fun t _ => ((hml t).integrable (by norm_num)).const_mul _]
    exact Finset.sum_congr rfl fun t _ => integral_const_mul _ _
  · congr 1
    rw [← covariance_self (memLp_finsetSum _ fun t _ => hmc t).aestronglyMeasurable.aemeasurable,
      covariance_fun_sum_fun_sum hmc hmc]
    refine Finset.sum_congr rfl fun s _ => Finset.sum_congr rfl fun t _ => ?_
    rw [covariance_const_mul_left, covariance_const_mul_right]

theorem gauss_law_eq {T Ω Ω' : Type} [Fintype T] [MeasurableSpace Ω] [MeasurableSpace Ω'] {P : Measure Ω}
    {P' : Measure Ω'} {X : T → Ω → ℝ} {X' : T → Ω' → ℝ} (hX : IsGaussianProcess X P) (hX' : IsGaussianProcess X' P')
    (hm : ∀ t, ∫ ω, X t ω ∂P = ∫ ω, X' t ω ∂P') (hc : ∀ s t, cov[X s, X t; P] = cov[X' s, X' t; P']) :
    P.map (fun ω t => X t ω) = P'.map fun ω t => X' t ω := by
  classical
  have := hX.isProbabilityMeasure
  have := hX'.isProbabilityMeasure
  have := (gauss_pi hX).isGaussian_map
  have := (gauss_pi hX').isGaussian_map
  refine Measure.ext_of_charFunDual (funext fun L => ?_)
  rw [gauss_chf hX, gauss_chf hX']
  simp only [hm, hc]

/-! ### Schemes as functions of the noise -/

section
variable {ι : Type} [Fintype ι] {t0 T L : ℝ} {a b : ℝ → (ι → ℝ) → ι → ℝ} {x0 : ι → ℝ}

/-- The values of the scheme along a grid are given functions of the noise at the points of the grid. -/
theorem scheme_function (h : LipschitzCoef a b t0 T L) {grid : List ℝ} (hg : grid.Pairwise (· < ·)) (h0 : t0 ∈ grid)
    (hI : ∀ u ∈ grid, u ∈ Set.Icc t0 (t0 + T)) (x0 : ι → ℝ) :
    ∃ g : ({u : ℝ // u ∈ grid} × ι → ℝ) → ℝ → ι → ℝ, (∀ t ∈ grid, Measurable fun w => g w t) ∧
      ∀ {Ω : Type} [MeasurableSpace Ω] {W X : ℝ → Ω → ι → ℝ}, IsScheme a b t0 x0 grid W X → ∀ t ∈ grid, ∀ ω,
        X t ω = g (fun p => W p.1 ω p.2) t := by
  classical
  let W0 : ℝ → ({u : ℝ // u ∈ grid} × ι → ℝ) → ι → ℝ := fun u w i => if hu : u ∈ grid then w (⟨u, hu⟩, i) else 0
  obtain ⟨X0, hX0⟩ := exists_sums hg h0 a b x0 W0
  have hW0 : ∀ u, Measurable (W0 u) := by
    intro u
    refine measurable_pi_lambda _ fun i => ?_
    by_cases hu : u ∈ grid
    · simp only [W0, dif_pos hu]
      exact measurable_pi_apply _
    · simp only [W0, dif_neg hu]
      exact measurable_const
  have hm := fun t ht => h.abs.meas (t := t) ht
  refine ⟨fun w t => X0 t w, fun t ht => ?_, fun {Ω _ W X} hX t ht ω => ?_⟩
  · refine grid_induction hg h0 (Q := fun t => Measurable fun w => X0 t w) ?_ ?_ t ht (hI t ht).1
    · have : (fun w => X0 t0 w) = fun _ => x0 := funext hX0.start
      rw [this]
      exact measurable_const
    · intro s t hst h0s hs ih
      refine measurable_pi_lambda _ fun i => ?_
      have e : (fun w => X0 t w i) = fun w => X0 s w i + a s (X0 s w) i * (t - s) +
          b s (X0 s w) i * (W0 t w i - W0 s w i) := funext fun w => hX0.step s t hst h0s hs w i
      rw [e]
      have ha := (measurable_pi_apply i).comp ((hm s (hI s hst.1)).1.comp ih)
      have hb := (measurable_pi_apply i).comp ((hm s (hI s hst.1)).2.comp ih)
      exact (((measurable_pi_apply i).comp ih).add (ha.mul_const _)).add
        (hb.mul (((measurable_pi_apply i).comp (hW0 t)).sub ((measurable_pi_apply i).comp (hW0 s))))
  · refine grid_induction hg h0 (Q := fun t => X t ω = X0 t fun p => W p.1 ω p.2) ?_ ?_ t ht (hI t ht).1
    · rw [hX.start, hX0.start]
    · intro s t hst h0s hs ih
      funext i
      rw [hX.step s t hst h0s hs, hX0.step s t hst h0s hs, ih]
      simp only [W0, dif_pos hst.1, dif_pos hst.2.1]

end

end Sdepy
