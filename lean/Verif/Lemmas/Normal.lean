import Mathlib.Probability.Distributions.Gaussian.Real
import Mathlib.Analysis.Calculus.Deriv.MeanValue
import Mathlib.MeasureTheory.Integral.IntervalIntegral.FundThmCalculus
import Mathlib.MeasureTheory.Integral.IntegralEqImproper

/-!
# The standard normal distribution and the error function
-/

namespace Sdepy

open Real MeasureTheory Set Filter Topology ProbabilityTheory

/-- Standard normal density. -/
noncomputable def normPdf (x : ℝ) : ℝ := exp (-(x * x) / 2) / √(2 * π)

/-- Standard normal distribution function. -/
noncomputable def normCdf (x : ℝ) : ℝ := ∫ t in Iic x, normPdf t

/-- The error function. -/
noncomputable def erf (x : ℝ) : ℝ := 2 / √π * ∫ t in (0 : ℝ)..x, exp (-(t * t))

theorem normPdf_eq (x : ℝ) : normPdf x = gaussianPDFReal 0 1 x := by
  simp only [normPdf, gaussianPDFReal, NNReal.coe_one, mul_one, sub_zero]
  rw [div_eq_mul_inv, mul_comm, ← sq]

theorem normPdf_pos (x : ℝ) : 0 < normPdf x := by unfold normPdf; positivity

theorem normPdf_neg (x : ℝ) : normPdf (-x) = normPdf x := by simp [normPdf]

theorem continuous_normPdf : Continuous normPdf := by unfold normPdf; fun_prop

theorem integrable_normPdf : Integrable normPdf := by
  have : normPdf = gaussianPDFReal 0 1 := funext normPdf_eq
  rw [this]
  exact integrable_gaussianPDFReal 0 1

theorem integral_normPdf : ∫ x, normPdf x = 1 := by
  simp only [normPdf_eq]
  exact integral_gaussianPDFReal_eq_one 0 one_ne_zero

theorem normCdf_eq (x : ℝ) : normCdf x = normCdf 0 + ∫ t in (0 : ℝ)..x, normPdf t := by
  rw [← intervalIntegral.integral_Iic_sub_Iic integrable_normPdf.integrableOn
    integrable_normPdf.integrableOn]
  simp only [normCdf]
  ring

theorem hasDerivAt_normCdf (x : ℝ) : HasDerivAt normCdf (normPdf x) x := by
  have : normCdf = fun y => normCdf 0 + ∫ t in (0 : ℝ)..y, normPdf t := funext normCdf_eq
  rw [this]
  exact (continuous_normPdf.integral_hasStrictDerivAt 0 x).hasDerivAt.const_add _

theorem continuous_normCdf : Continuous normCdf :=
  continuous_iff_continuousAt.2 fun x => (hasDerivAt_normCdf x).continuousAt

theorem normCdf_strictMono : StrictMono normCdf :=
  strictMono_of_hasDerivAt_pos hasDerivAt_normCdf normPdf_pos

theorem normCdf_neg (x : ℝ) : normCdf (-x) = 1 - normCdf x := by
  have h := intervalIntegral.integral_Iic_add_Ioi (μ := volume) (b := x)
    integrable_normPdf.integrableOn integrable_normPdf.integrableOn
  rw [integral_normPdf] at h
  have h2 : ∫ t in Ioi x, normPdf t = normCdf (-x) := by
    have := integral_comp_neg_Iic (-x) normPdf
    rw [neg_neg] at this
    rw [← this]
    simp only [normPdf_neg, normCdf]
  rw [h2] at h
  simp only [normCdf] at h ⊢
  linarith

theorem normCdf_zero : normCdf 0 = 1 / 2 := by
  have := normCdf_neg 0
  rw [neg_zero] at this
  linarith

theorem normCdf_pos (x : ℝ) : 0 < normCdf x := by
  have h : 0 ≤ normCdf (x - 1) := integral_nonneg fun t => (normPdf_pos t).le
  exact h.trans_lt (normCdf_strictMono (by linarith))

theorem normCdf_lt_one (x : ℝ) : normCdf x < 1 := by
  have := normCdf_pos (-x)
  rw [normCdf_neg] at this
  linarith

theorem tendsto_normCdf_atTop : Tendsto normCdf atTop (𝓝 1) := by
  have h := intervalIntegral_tendsto_integral_Ioi (0 : ℝ)
    (integrable_normPdf.integrableOn (s := Ioi 0)) tendsto_id
  have h2 : ∫ t in Ioi (0 : ℝ), normPdf t = 1 / 2 := by
    have h := intervalIntegral.integral_Iic_add_Ioi (μ := volume) (b := (0 : ℝ))
      integrable_normPdf.integrableOn integrable_normPdf.integrableOn
    rw [integral_normPdf] at h
    have := normCdf_zero
    simp only [normCdf] at this
    linarith
  rw [h2] at h
  have h3 := h.const_add (normCdf 0)
  rw [normCdf_zero] at h3
  have e : (fun y => (1 : ℝ) / 2 + ∫ t in (0 : ℝ)..id y, normPdf t) = normCdf := by
    funext y
    rw [normCdf_eq y, normCdf_zero]
    rfl
  rw [e] at h3
  norm_num at h3
  exact h3

theorem tendsto_normCdf_atBot : Tendsto normCdf atBot (𝓝 0) := by
  have h := (tendsto_normCdf_atTop.comp tendsto_neg_atBot_atTop).const_sub 1
  rw [sub_self] at h
  refine h.congr fun x => ?_
  simp [normCdf_neg]

/-- The normal distribution function in terms of the error function. -/
theorem erf_normCdf (x : ℝ) : (erf (x / √2) + 1) / 2 = normCdf x := by
  have hd : ∀ y, HasDerivAt (fun y => (erf (y / √2) + 1) / 2 - normCdf y) 0 y := by
    intro y
    have hc : Continuous fun t : ℝ => exp (-(t * t)) := by fun_prop
    have h1 : HasDerivAt erf (2 / √π * exp (-((y / √2) * (y / √2)))) (y / √2) :=
      ((hc.integral_hasStrictDerivAt 0 (y / √2)).hasDerivAt).const_mul _
    have h2 := ((h1.comp y ((hasDerivAt_id y).div_const √2)).add_const 1).div_const 2
    have h3 := h2.sub (hasDerivAt_normCdf y)
    refine HasDerivAt.congr_deriv (f := fun y => (erf (y / √2) + 1) / 2 - normCdf y) h3 ?_
    have e1 : (y / √2) * (y / √2) = y * y / 2 := by
      rw [div_mul_div_comm, Real.mul_self_sqrt (by norm_num)]
    have e2 : √(2 * π) = √2 * √π := Real.sqrt_mul (by norm_num) _
    rw [e1, normPdf, e2, neg_div]
    have : √2 ≠ 0 := by positivity
    have : √π ≠ 0 := by positivity
    field_simp
    ring
  have hc := is_const_of_deriv_eq_zero (f := fun y => (erf (y / √2) + 1) / 2 - normCdf y)
    (fun y => (hd y).differentiableAt) (fun y => (hd y).deriv) x 0
  simp only [zero_div, normCdf_zero] at hc
  have : erf 0 = 0 := by simp [erf]
  rw [this] at hc
  linarith

theorem integrable_normPdf_affine (m : ℝ) {w : ℝ} (hw : w ≠ 0) :
    Integrable fun t => normPdf ((t - m) / w) :=
  (integrable_normPdf.comp_div hw).comp_sub_right m

/-- Distribution function of a normal variate with mean `m` and standard deviation `w`. -/
theorem integral_Iic_normPdf_affine (m : ℝ) {w : ℝ} (hw : 0 < w) (x : ℝ) :
    ∫ t in Iic x, normPdf ((t - m) / w) / w = normCdf ((x - m) / w) := by
  have hd : ∀ t ∈ Iic x, HasDerivAt (fun t => normCdf ((t - m) / w)) (normPdf ((t - m) / w) / w) t := by
    intro t _
    have := (hasDerivAt_normCdf ((t - m) / w)).comp t (((hasDerivAt_id t).sub_const m).div_const w)
    exact HasDerivAt.congr_deriv (f := fun t => normCdf ((t - m) / w)) this (by ring)
  have ht : Tendsto (fun t => normCdf ((t - m) / w)) atBot (𝓝 0) := by
    refine tendsto_normCdf_atBot.comp ?_
    have h1 : Tendsto (fun t : ℝ => t - m) atBot atBot := tendsto_atBot_add_const_right _ (-m) tendsto_id
    exact h1.atBot_div_const hw
  have := integral_Iic_of_hasDerivAt_of_tendsto' hd
    ((integrable_normPdf_affine m hw.ne').div_const w).integrableOn ht
  rw [this, sub_zero]

theorem integral_normPdf_affine (m : ℝ) {w : ℝ} (hw : 0 < w) :
    ∫ t, normPdf ((t - m) / w) / w = 1 := by
  have h1 : ∫ t, normPdf ((t - m) / w) / w = ∫ t, normPdf (t / w) / w :=
    integral_sub_right_eq_self (fun t => normPdf (t / w) / w) m
  rw [h1, integral_div, Measure.integral_comp_div normPdf w, integral_normPdf, abs_of_pos hw]
  simp [hw.ne']

end Sdepy
