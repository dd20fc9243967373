import Mathlib.Analysis.SpecialFunctions.Gaussian.FourierTransform
import Mathlib.MeasureTheory.Integral.RieszMarkovKakutani.Real
import Mathlib.Probability.Distributions.Gaussian.Real

/-!
# Density of a law with an integrable characteristic function

The law is smoothed by the addition of a normal variable of small variance, for which inversion amounts
to the exchange of two integrals.
-/

namespace Sdepy

open Real MeasureTheory ProbabilityTheory Set Filter Topology
open Complex (I)

section
variable {μ : Measure ℝ} [IsProbabilityMeasure μ] {φ : ℝ → ℂ}

/-- The characteristic function of a normal variable, inverted. -/
theorem gaussian_inversion {v : ℝ} (hv : 0 < v) (x y : ℝ) :
    ∫ u : ℝ, Complex.exp (I * (y - x : ℝ) * u) * Complex.exp (-(v / 2 : ℝ) * u ^ 2) =
      ((2 * π * gaussianPDFReal y v.toNNReal x : ℝ) : ℂ) := by
  rw [fourierIntegral_gaussian (by simpa using hv)]
  have h1 : (π / ((v / 2 : ℝ) : ℂ)) ^ (1 / 2 : ℂ) = ((√(π / (v / 2)) : ℝ) : ℂ) := by
    rw [sqrt_eq_rpow, Complex.ofReal_cpow (by positivity)]
    push_cast
    rfl
  have h2 : Complex.exp (-((y - x : ℝ) : ℂ) ^ 2 / (4 * ((v / 2 : ℝ) : ℂ))) =
      ((exp (-(y - x) ^ 2 / (4 * (v / 2))) : ℝ) : ℂ) := by push_cast; rfl
  rw [h1, h2, ← Complex.ofReal_mul]
  congr 1
  unfold gaussianPDFReal
  rw [Real.coe_toNNReal _ hv.le]
  have e1 : -(y - x) ^ 2 / (4 * (v / 2)) = -(x - y) ^ 2 / (2 * v) := by
    congr 1 <;> ring
  have e2 : √(π / (v / 2)) = 2 * π * (√(2 * π * v))⁻¹ := by
    rw [← div_eq_mul_inv, eq_div_iff (by positivity), ← sqrt_mul (by positivity),
      show π / (v / 2) * (2 * π * v) = (2 * π) ^ 2 by field_simp, sqrt_sq (by positivity)]
  rw [e1, e2]
  ring

variable (hφ : ∀ u : ℝ, φ u = ∫ x : ℝ, Complex.exp (I * u * x) ∂μ) (hi : Integrable φ)

include hφ in
/-- Inversion for the smoothed law. -/
theorem smoothed_inversion {v : ℝ} (hv : 0 < v) (x : ℝ) :
    ∫ u : ℝ, Complex.exp (-I * u * x) / (2 * π) * φ u * Complex.exp (-(v / 2 : ℝ) * u ^ 2) =
      ((∫ y, gaussianPDFReal y v.toNNReal x ∂μ : ℝ) : ℂ) := by
  have e1 : ∀ u : ℝ, Complex.exp (-I * u * x) / (2 * π) * φ u * Complex.exp (-(v / 2 : ℝ) * u ^ 2) =
      ∫ y : ℝ, Complex.exp (I * (y - x : ℝ) * u) * Complex.exp (-(v / 2 : ℝ) * u ^ 2) / (2 * π) ∂μ := by
    intro u
    rw [hφ, mul_comm _ (Complex.exp _), ← mul_assoc, ← integral_const_mul]
    refine integral_congr_ae (Eventually.of_forall fun y => ?_)
    simp only
    rw [show (I * (y - x : ℝ) * u : ℂ) = -I * u * x + I * u * y by push_cast; ring, Complex.exp_add]
    ring
  simp only [e1]
  have hb : Integrable (fun u : ℝ => exp (-(v / 2) * u ^ 2) / (2 * π)) :=
    (integrable_exp_neg_mul_sq (by positivity)).div_const _
  have hint : Integrable (Function.uncurry fun u y : ℝ =>
      Complex.exp (I * (y - x : ℝ) * u) * Complex.exp (-(v / 2 : ℝ) * u ^ 2) / (2 * π))
      (volume.prod μ) := by
    have h2 : Integrable (fun p : ℝ × ℝ => exp (-(v / 2) * p.1 ^ 2) / (2 * π) * (1 : ℝ))
        (volume.prod μ) := hb.mul_prod (integrable_const (1 : ℝ))
    refine h2.mono' (Measurable.aestronglyMeasurable (by
      unfold Function.uncurry; fun_prop)) (Eventually.of_forall fun p => ?_)
    simp only [Function.uncurry]
    rw [norm_div, norm_mul, Complex.norm_exp, Complex.norm_exp]
    have r1 : (I * (p.2 - x : ℝ) * p.1 : ℂ).re = 0 := by simp
    have r2 : (-((v / 2 : ℝ) : ℂ) * (p.1 : ℂ) ^ 2).re = -(v / 2) * p.1 ^ 2 := by
      rw [← Complex.ofReal_pow, ← Complex.ofReal_neg, ← Complex.ofReal_mul, Complex.ofReal_re]
    rw [r1, r2]
    have r3 : ‖(2 * π : ℂ)‖ = 2 * π := by
      rw [show (2 * π : ℂ) = ((2 * π : ℝ) : ℂ) by push_cast; rfl, Complex.norm_real,
        norm_of_nonneg (by positivity)]
    rw [r3]
    simp
  rw [integral_integral_swap hint]
  simp only [integral_div, gaussian_inversion hv]
  have e3 := integral_ofReal (𝕜 := ℂ) (μ := μ) (f := fun y => 2 * π * gaussianPDFReal y v.toNNReal x)
  have e4 : (∫ y, ((2 * π * gaussianPDFReal y v.toNNReal x : ℝ) : ℂ) ∂μ) =
      ((2 * π * ∫ y, gaussianPDFReal y v.toNNReal x ∂μ : ℝ) : ℂ) := by
    rw [← integral_const_mul]
    exact e3
  rw [e4]
  push_cast
  have : (π : ℂ) ≠ 0 := by exact_mod_cast pi_ne_zero
  field_simp

theorem norm_kernel (x u : ℝ) : ‖Complex.exp (-I * u * x) / (2 * π)‖ = 1 / (2 * π) := by
  rw [norm_div, Complex.norm_exp]
  have r1 : (-I * u * x : ℂ).re = 0 := by simp
  have r3 : ‖(2 * π : ℂ)‖ = 2 * π := by
    rw [show (2 * π : ℂ) = ((2 * π : ℝ) : ℂ) by push_cast; rfl, Complex.norm_real,
      norm_of_nonneg (by positivity)]
  rw [r1, r3, exp_zero]

include hi in
theorem integrable_inversion (x : ℝ) :
    Integrable fun u : ℝ => Complex.exp (-I * u * x) / (2 * π) * φ u := by
  refine hi.bdd_mul (c := 1 / (2 * π)) (Measurable.aestronglyMeasurable (by fun_prop))
    (Eventually.of_forall fun u => ?_)
  rw [norm_kernel]

include hi in
/-- The smoothed inverse has the inverse as a limit. -/
theorem tendsto_smoothed (x : ℝ) :
    Tendsto (fun n : ℕ => ∫ u : ℝ, Complex.exp (-I * u * x) / (2 * π) * φ u *
      Complex.exp (-((1 / ((n : ℝ) + 1)) / 2 : ℝ) * u ^ 2)) atTop
      (𝓝 (∫ u : ℝ, Complex.exp (-I * u * x) / (2 * π) * φ u)) := by
  refine tendsto_integral_of_dominated_convergence (fun u => 1 / (2 * π) * ‖φ u‖) ?_
    (hi.norm.const_mul _) ?_ ?_
  · intro n
    exact (integrable_inversion hi x).aestronglyMeasurable.mul
      (Measurable.aestronglyMeasurable (by fun_prop))
  · intro n
    refine Eventually.of_forall fun u => ?_
    rw [norm_mul, norm_mul, norm_kernel, Complex.norm_exp]
    have r2 : (-((1 / ((n : ℝ) + 1) / 2 : ℝ) : ℂ) * (u : ℂ) ^ 2).re = -(1 / ((n : ℝ) + 1) / 2) * u ^ 2 := by
      rw [← Complex.ofReal_pow, ← Complex.ofReal_neg, ← Complex.ofReal_mul, Complex.ofReal_re]
    rw [r2]
    have : exp (-(1 / ((n : ℝ) + 1) / 2) * u ^ 2) ≤ 1 := by
      rw [exp_le_one_iff, neg_mul, neg_nonpos]; positivity
    exact mul_le_of_le_one_right (by positivity) this
  · refine Eventually.of_forall fun u => ?_
    have h1 : Tendsto (fun n : ℕ => -((1 / ((n : ℝ) + 1)) / 2) * u ^ 2) atTop (𝓝 (-(0 / 2) * u ^ 2)) :=
      ((tendsto_one_div_add_atTop_nhds_zero_nat.div_const 2).neg).mul_const _
    have h2 : Tendsto (fun n : ℕ => Complex.exp (-((1 / ((n : ℝ) + 1)) / 2 : ℝ) * u ^ 2)) atTop
        (𝓝 1) := by
      have h3 := (Complex.continuous_exp.comp Complex.continuous_ofReal).continuousAt.tendsto.comp h1
      simp only [Function.comp_def] at h3
      simp only [zero_div, neg_zero, zero_mul, Complex.ofReal_zero, Complex.exp_zero] at h3
      refine h3.congr fun n => ?_
      push_cast
      rfl
    simpa using h2.const_mul (Complex.exp (-I * u * x) / (2 * π) * φ u)

/-- Averages of a bounded continuous function with respect to narrower and narrower normal laws. -/
theorem tendsto_gaussian {g : ℝ → ℝ} (hg : Continuous g) {c : ℝ} (hc : ∀ x, |g x| ≤ c) (y : ℝ) :
    Tendsto (fun n : ℕ => ∫ x, g x ∂gaussianReal y (1 / ((n : ℝ) + 1)).toNNReal) atTop (𝓝 (g y)) := by
  have e : ∀ n : ℕ, ∫ x, g x ∂gaussianReal y (1 / ((n : ℝ) + 1)).toNNReal =
      ∫ z, g (y + √(1 / ((n : ℝ) + 1)) * z) ∂gaussianReal 0 1 := by
    intro n
    have h1 := gaussianReal_map_const_mul (μ := 0) (v := 1) (√(1 / ((n : ℝ) + 1)))
    have h2 := gaussianReal_map_const_add (μ := 0) (v := (1 / ((n : ℝ) + 1)).toNNReal) y
    have h3 : (gaussianReal 0 1).map (fun z => y + √(1 / ((n : ℝ) + 1)) * z) =
        gaussianReal y (1 / ((n : ℝ) + 1)).toNNReal := by
      have h4 := Measure.map_map (μ := gaussianReal 0 1) (g := fun z : ℝ => y + z)
        (f := fun z : ℝ => √(1 / ((n : ℝ) + 1)) * z) (by fun_prop) (by fun_prop)
      rw [show (fun z : ℝ => y + √(1 / ((n : ℝ) + 1)) * z) =
        (fun z => y + z) ∘ (fun z => √(1 / ((n : ℝ) + 1)) * z) from rfl, ← h4, h1]
      have : (NNReal.mk (√(1 / ((n : ℝ) + 1)) ^ 2) (sq_nonneg _) * 1 : NNReal) =
          (1 / ((n : ℝ) + 1)).toNNReal := by
        ext
        rw [mul_one, NNReal.coe_mk, sq_sqrt (by positivity), Real.coe_toNNReal _ (by positivity)]
      rw [this, mul_zero, h2, zero_add]
    rw [← h3, integral_map (by fun_prop) (hg.aestronglyMeasurable)]
  simp only [e]
  have : g y = ∫ _z : ℝ, g y ∂gaussianReal 0 1 := by simp
  rw [this]
  refine tendsto_integral_of_dominated_convergence (fun _ => c) ?_ (integrable_const c) ?_ ?_
  · intro n
    exact (hg.comp (by fun_prop)).aestronglyMeasurable
  · intro n
    exact Eventually.of_forall fun z => hc _
  · refine Eventually.of_forall fun z => ?_
    have h1 : Tendsto (fun n : ℕ => y + √(1 / ((n : ℝ) + 1)) * z) atTop (𝓝 (y + √0 * z)) :=
      ((continuous_sqrt.continuousAt.tendsto.comp
        tendsto_one_div_add_atTop_nhds_zero_nat).mul_const z).const_add y
    rw [sqrt_zero, zero_mul, add_zero] at h1
    exact hg.continuousAt.tendsto.comp h1

include hφ hi in
/-- A law with an integrable characteristic function has, as a density, the inverse Fourier transform of
the latter: a continuous, non negative function. -/
theorem chf_inversion {f : ℝ → ℝ}
    (hf : ∀ x, f x = ∫ u : ℝ, (Complex.exp (-I * u * x) / (2 * π) * φ u).re) :
    Continuous f ∧ (∀ x, 0 ≤ f x) ∧ μ = volume.withDensity fun x => ENNReal.ofReal (f x) := by
  have hfc : ∀ x, f x = (∫ u : ℝ, Complex.exp (-I * u * x) / (2 * π) * φ u).re := by
    intro x
    rw [hf, ← Complex.reCLM_apply, ← Complex.reCLM.integral_comp_comm (integrable_inversion hi x)]
    rfl
  -- continuity
  have hcont : Continuous f := by
    have : f = fun x : ℝ => (∫ u : ℝ, Complex.exp (-I * u * x) / (2 * π) * φ u).re := funext hfc
    rw [this]
    refine Complex.continuous_re.comp ?_
    refine continuous_of_dominated (bound := fun u => 1 / (2 * π) * ‖φ u‖) ?_ ?_ (hi.norm.const_mul _) ?_
    · exact fun x => (integrable_inversion hi x).aestronglyMeasurable
    · intro x
      refine Eventually.of_forall fun u => ?_
      rw [norm_mul, norm_kernel]
    · refine Eventually.of_forall fun u => ?_
      fun_prop
  -- the smoothed densities
  let w : ℕ → ℝ := fun n => 1 / ((n : ℝ) + 1)
  have hw : ∀ n, 0 < w n := fun n => by positivity
  let q : ℕ → ℝ → ℝ := fun n x => ∫ y, gaussianPDFReal y (w n).toNNReal x ∂μ
  have hq : ∀ n x, q n x = (∫ u : ℝ, Complex.exp (-I * u * x) / (2 * π) * φ u *
      Complex.exp (-((w n) / 2 : ℝ) * u ^ 2)).re := by
    intro n x
    rw [smoothed_inversion hφ (hw n) x, Complex.ofReal_re]
  have hlim : ∀ x, Tendsto (fun n => q n x) atTop (𝓝 (f x)) := by
    intro x
    simp only [hq, hfc]
    exact (Complex.continuous_re.tendsto _).comp (tendsto_smoothed hi x)
  have hq0 : ∀ n x, 0 ≤ q n x := fun n x => integral_nonneg fun y => gaussianPDFReal_nonneg _ _ _
  have hf0 : ∀ x, 0 ≤ f x := fun x => ge_of_tendsto' (hlim x) fun n => hq0 n x
  let B : ℝ := ∫ u, 1 / (2 * π) * ‖φ u‖
  have hqB : ∀ n x, q n x ≤ B := by
    intro n x
    rw [hq]
    refine (Complex.re_le_norm _).trans ((norm_integral_le_integral_norm _).trans ?_)
    refine integral_mono_of_nonneg (Eventually.of_forall fun u => norm_nonneg _)
      (hi.norm.const_mul _) (Eventually.of_forall fun u => ?_)
    simp only
    rw [norm_mul, norm_mul, norm_kernel, Complex.norm_exp]
    have r2 : (-((w n / 2 : ℝ) : ℂ) * (u : ℂ) ^ 2).re = -(w n / 2) * u ^ 2 := by
      rw [← Complex.ofReal_pow, ← Complex.ofReal_neg, ← Complex.ofReal_mul, Complex.ofReal_re]
    rw [r2]
    have : exp (-(w n / 2) * u ^ 2) ≤ 1 := by
      rw [exp_le_one_iff, neg_mul, neg_nonpos]
      have := hw n
      positivity
    exact mul_le_of_le_one_right (by positivity) this
  have hfB : ∀ x, f x ≤ B := fun x => le_of_tendsto' (hlim x) fun n => hqB n x
  have hqm : ∀ n, Measurable (q n) := by
    intro n
    have : StronglyMeasurable (Function.uncurry fun x y : ℝ => gaussianPDFReal y (w n).toNNReal x) := by
      refine Measurable.stronglyMeasurable ?_
      unfold Function.uncurry gaussianPDFReal
      fun_prop
    exact (this.integral_prod_right).measurable
  refine ⟨hcont, hf0, ?_⟩
  -- the measure with density `f` is locally finite, hence regular
  have hle : volume.withDensity (fun x => ENNReal.ofReal (f x)) ≤ ENNReal.ofReal B • (volume : Measure ℝ) := by
    rw [← withDensity_const]
    exact withDensity_mono (Eventually.of_forall fun x => ENNReal.ofReal_le_ofReal (hfB x))
  haveI : IsLocallyFiniteMeasure (ENNReal.ofReal B • (volume : Measure ℝ)) := by
    have : ENNReal.ofReal B • (volume : Measure ℝ) = B.toNNReal • (volume : Measure ℝ) := rfl
    rw [this]
    infer_instance
  haveI : IsLocallyFiniteMeasure (volume.withDensity fun x => ENNReal.ofReal (f x)) :=
    Measure.isLocallyFiniteMeasure_of_le hle
  refine Measure.ext_of_integral_eq_on_compactlySupported fun g => ?_
  obtain ⟨c, hc⟩ : ∃ c, ∀ x, |g x| ≤ c := by
    obtain ⟨c, hc⟩ := g.hasCompactSupport.exists_bound_of_continuous g.continuous
    exact ⟨c, fun x => by simpa using hc x⟩
  have hgi : Integrable (g : ℝ → ℝ) := g.continuous.integrable_of_hasCompactSupport g.hasCompactSupport
  -- the two limits
  have l1 : Tendsto (fun n => ∫ x, g x * q n x) atTop (𝓝 (∫ x, g x * f x)) := by
    refine tendsto_integral_of_dominated_convergence (fun x => ‖g x‖ * B) ?_ (hgi.norm.mul_const _) ?_ ?_
    · exact fun n => (g.continuous.measurable.mul (hqm n)).aestronglyMeasurable
    · intro n
      refine Eventually.of_forall fun x => ?_
      rw [norm_mul, norm_of_nonneg (hq0 n x)]
      exact mul_le_mul_of_nonneg_left (hqB n x) (norm_nonneg _)
    · exact Eventually.of_forall fun x => (hlim x).const_mul _
  have l2 : Tendsto (fun n => ∫ x, g x * q n x) atTop (𝓝 (∫ y, g y ∂μ)) := by
    have e : ∀ n, ∫ x, g x * q n x = ∫ y, ∫ x, g x ∂gaussianReal y (w n).toNNReal ∂μ := by
      intro n
      have hne : (w n).toNNReal ≠ 0 := by simpa using hw n
      have e1 : ∀ x, g x * q n x = ∫ y, gaussianPDFReal y (w n).toNNReal x * g x ∂μ := by
        intro x
        rw [integral_mul_const, mul_comm]
      simp only [e1]
      rw [integral_integral_swap]
      · refine integral_congr_ae (Eventually.of_forall fun y => ?_)
        simp only
        rw [integral_gaussianReal_eq_integral_smul hne]
        rfl
      · have hb : Integrable (fun p : ℝ × ℝ => |g p.1| * (√(2 * π * (w n).toNNReal))⁻¹)
            ((volume : Measure ℝ).prod μ) :=
          hgi.abs.mul_prod (integrable_const _)
        refine hb.mono' ?_ (Eventually.of_forall fun p => ?_)
        · refine Measurable.aestronglyMeasurable ?_
          unfold Function.uncurry gaussianPDFReal
          have := g.continuous.measurable
          fun_prop
        · simp only [Function.uncurry]
          rw [norm_mul, norm_of_nonneg (gaussianPDFReal_nonneg _ _ _), mul_comm, norm_eq_abs]
          refine mul_le_mul_of_nonneg_left ?_ (abs_nonneg _)
          unfold gaussianPDFReal
          refine mul_le_of_le_one_right (by positivity) ?_
          rw [exp_le_one_iff]
          exact div_nonpos_of_nonpos_of_nonneg (by nlinarith [sq_nonneg (p.1 - p.2)]) (by positivity)
    simp only [e]
    refine tendsto_integral_of_dominated_convergence (fun _ => c) ?_ (integrable_const c) ?_ ?_
    · intro n
      have hne : (w n).toNNReal ≠ 0 := by simpa using hw n
      have e2 : (fun y => ∫ x, g x ∂gaussianReal y (w n).toNNReal) =
          fun y => ∫ x, gaussianPDFReal y (w n).toNNReal x * g x := by
        funext y
        rw [integral_gaussianReal_eq_integral_smul hne]
        rfl
      rw [e2]
      have : StronglyMeasurable (Function.uncurry fun y x : ℝ =>
          gaussianPDFReal y (w n).toNNReal x * g x) := by
        refine Measurable.stronglyMeasurable ?_
        unfold Function.uncurry gaussianPDFReal
        have := g.continuous.measurable
        fun_prop
      exact this.integral_prod_right.aestronglyMeasurable
    · intro n
      refine Eventually.of_forall fun y => ?_
      refine (norm_integral_le_of_norm_le_const (C := c) (Eventually.of_forall fun x => ?_)).trans ?_
      · exact hc x
      · simp
    · exact Eventually.of_forall fun y => tendsto_gaussian g.continuous hc y
  rw [tendsto_nhds_unique l2 l1, integral_withDensity_eq_integral_toReal_smul (by fun_prop)
    (Eventually.of_forall fun x => ENNReal.ofReal_lt_top)]
  refine integral_congr_ae (Eventually.of_forall fun x => ?_)
  simp only
  rw [ENNReal.toReal_ofReal (hf0 x), smul_eq_mul, mul_comm]

end

end Sdepy
