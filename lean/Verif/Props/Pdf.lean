import Verif.Model.Analytical
import Mathlib.Analysis.SpecialFunctions.Log.Deriv
import Mathlib.MeasureTheory.Integral.IntegralEqImproper

/-!
# Analytical density and distribution functions (C60)
-/

namespace Sdepy
namespace Spec
end Spec
open Spec Real MeasureTheory ProbabilityTheory Set Filter Topology

/-! ### specification -/

/-- `pdf` and `cdf` give, at every point, the density and the distribution function of a law on the line
(`none` stands for NaN). -/
structure Spec.Describe (law : Measure ℝ) (pdf cdf : ℝ → Option ℝ) : Prop where
  cdf_eq : ∀ x, cdf x = some (law.real (Iic x))
  pdf_eq : ∃ f : ℝ → ℝ, (∀ x, pdf x = some (f x)) ∧ (∀ x, 0 ≤ f x) ∧ Measurable f ∧
    law = volume.withDensity fun x => ENNReal.ofReal (f x)

/-- The law of the geometric Brownian motion. -/
noncomputable def Spec.geometricLaw (x0 mu sigma t : ℝ) : Measure ℝ :=
  (gaussianReal 0 t.toNNReal).map fun w => x0 * exp ((mu - sigma ^ 2 / 2) * t + sigma * w)

/-! ### lemmas -/

theorem normal_describe (m : ℝ) {s : ℝ} (hs : 0 < s) :
    Describe (gaussianReal m (s ^ 2).toNNReal) (fun x => scipyNormPdf x m s)
      fun x => scipyNormCdf x m s := by
  have hv : (s ^ 2).toNNReal ≠ 0 := by simp; positivity
  have hp : ∀ x, normPdf ((x - m) / s) / s = gaussianPDFReal m (s ^ 2).toNNReal x := by
    intro x
    unfold normPdf gaussianPDFReal
    rw [Real.coe_toNNReal _ (sq_nonneg s), show 2 * π * s ^ 2 = s ^ 2 * (2 * π) by ring,
      sqrt_mul (sq_nonneg s), sqrt_sq hs.le]
    have : -((x - m) / s * ((x - m) / s)) / 2 = -(x - m) ^ 2 / (2 * s ^ 2) := by field_simp
    rw [this]
    field_simp
  constructor
  · intro x
    unfold scipyNormCdf
    rw [if_pos hs]
    congr 1
    rw [measureReal_def, gaussianReal_apply_eq_integral _ hv, ENNReal.toReal_ofReal]
    · have := integral_Iic_normPdf_affine m hs x
      simp only [← hp]
      exact this.symm
    · exact integral_nonneg fun x => gaussianPDFReal_nonneg _ _ _
  · refine ⟨fun x => normPdf ((x - m) / s) / s, fun x => ?_, fun x => ?_, ?_, ?_⟩
    · unfold scipyNormPdf; rw [if_pos hs]
    · simp only [hp]; exact gaussianPDFReal_nonneg _ _ _
    · simp only [hp]; exact measurable_gaussianPDFReal _ _
    · simp only [hp]
      rw [gaussianReal_of_var_ne_zero _ hv]
      rfl

/-! ### C60 -/

/-- `wiener_pdf` and `wiener_cdf`. -/
theorem C60_wiener (x0 mu : ℝ) {sigma t : ℝ} (hs : 0 < sigma) (ht : 0 < t) :
    Describe (gaussianReal (wienerMean x0 mu sigma t) (wienerVar x0 mu sigma t).toNNReal)
      (wienerPdf x0 mu sigma t) (wienerCdf x0 mu sigma t) := by
  have h := normal_describe (x0 + mu * t) (s := sigma * √t) (by positivity)
  rw [mul_pow, sq_sqrt ht.le, sq sigma] at h
  exact h

/-- `oruh_pdf` and `oruh_cdf`. -/
theorem C60_oruh (x0 theta : ℝ) {k sigma t : ℝ} (hk : k ≠ 0) (hs : sigma ≠ 0) (ht : 0 < t) :
    Describe (gaussianReal (oruhMean x0 theta k sigma t) (oruhVar x0 theta k sigma t).toNNReal)
      (oruhPdf x0 theta k sigma t) (oruhCdf x0 theta k sigma t) := by
  have hv : 0 < oruhVar x0 theta k sigma t := by
    unfold oruhVar
    have h2 : 0 < sigma * sigma := mul_self_pos.2 hs
    have h3 : 0 < 1 / (2 * k) * (1 - exp (-2 * k * t)) := by
      rcases lt_or_gt_of_ne hk with hk | hk
      · have : 1 < exp (-2 * k * t) := by rw [one_lt_exp_iff]; nlinarith
        exact mul_pos_of_neg_of_neg (one_div_neg.2 (by linarith)) (by linarith)
      · have : exp (-2 * k * t) < 1 := by rw [exp_lt_one_iff]; nlinarith
        exact mul_pos (by positivity) (by linarith)
    have := mul_pos h2 h3
    calc 0 < _ := this
      _ = _ := by ring
  have h := normal_describe (oruhMean x0 theta k sigma t) (sqrt_pos.2 hv)
  rw [sq_sqrt hv.le] at h
  exact h

/-- `hw2f_pdf` and `hw2f_cdf`. -/
theorem C60_hw2f (x1 x2 theta1 theta2 k1 k2 s1 s2 rho t : ℝ)
    (hv : 0 < hw2fVar x1 x2 theta1 theta2 k1 k2 s1 s2 rho t) :
    Describe (gaussianReal (hw2fMean x1 x2 theta1 theta2 k1 k2 s1 s2 rho t)
        (hw2fVar x1 x2 theta1 theta2 k1 k2 s1 s2 rho t).toNNReal)
      (hw2fPdf x1 x2 theta1 theta2 k1 k2 s1 s2 rho t)
      (hw2fCdf x1 x2 theta1 theta2 k1 k2 s1 s2 rho t) := by
  have h := normal_describe (hw2fMean x1 x2 theta1 theta2 k1 k2 s1 s2 rho t) (sqrt_pos.2 hv)
  rw [sq_sqrt hv.le] at h
  exact h

theorem geometric_eq {x0 mu sigma t : ℝ} (ht : 0 ≤ t) (w : ℝ) :
    x0 * exp ((mu - sigma ^ 2 / 2) * t + sigma * w) =
      x0 * exp (mu * t - sigma * √t * (sigma * √t) / 2) * exp (sigma * w) := by
  rw [mul_assoc, ← exp_add]
  congr 2
  have := sq_sqrt ht
  linear_combination (sigma ^ 2 / 2) * this

/-- `lognorm_pdf` and `lognorm_cdf`. -/
theorem C60_lognorm (mu : ℝ) {x0 sigma t : ℝ} (hx : 0 < x0) (hs : 0 < sigma) (ht : 0 < t) :
    Describe (geometricLaw x0 mu sigma t) (lognormPdf x0 mu sigma t) (lognormCdf x0 mu sigma t) := by
  set S := x0 * exp (mu * t - sigma * √t * (sigma * √t) / 2) with hS
  have hS0 : 0 < S := by positivity
  have hst : 0 < sigma * √t := by positivity
  have hsq : 0 < √t := by positivity
  have hh : (fun w => x0 * exp ((mu - sigma ^ 2 / 2) * t + sigma * w)) = fun w => S * exp (sigma * w) :=
    funext fun w => geometric_eq ht.le w
  have hg := normal_describe 0 hsq
  rw [sq_sqrt ht.le] at hg
  unfold geometricLaw
  rw [hh]
  have hmeas : Measurable fun w => S * exp (sigma * w) := by fun_prop
  constructor
  · intro x
    unfold lognormCdf scipyLognormCdf
    simp only [← hS]
    rw [if_pos ⟨hst, hS0⟩]
    congr 1
    rw [measureReal_def, Measure.map_apply hmeas measurableSet_Iic, ← measureReal_def]
    by_cases h : 0 < x
    · rw [if_pos h]
      have e : (fun w => S * exp (sigma * w)) ⁻¹' Iic x = Iic (log (x / S) / sigma) := by
        ext w
        simp only [mem_preimage, mem_Iic]
        rw [le_div_iff₀ hs, le_log_iff_exp_le (by positivity), le_div_iff₀ hS0, mul_comm S, mul_comm w]
      rw [e]
      have := hg.cdf_eq (log (x / S) / sigma)
      unfold scipyNormCdf at this
      rw [if_pos hsq, Option.some.injEq] at this
      rw [← this, sub_zero, div_div]
    · rw [if_neg h]
      have e : (fun w => S * exp (sigma * w)) ⁻¹' Iic x = ∅ := by
        ext w
        simp only [mem_preimage, mem_Iic, mem_empty_iff_false, iff_false, not_le]
        have : 0 < S * exp (sigma * w) := by positivity
        linarith
      rw [e]; simp
  · refine ⟨fun x => if 0 < x then normPdf (log (x / S) / (sigma * √t)) / (sigma * √t * (x / S)) / S
      else 0, fun x => ?_, fun x => ?_, ?_, ?_⟩
    · unfold lognormPdf scipyLognormPdf
      simp only [← hS]
      rw [if_pos ⟨hst, hS0⟩]
    · by_cases h : 0 < x
      · simp only [if_pos h]
        have := normPdf_pos (log (x / S) / (sigma * √t))
        positivity
      · simp [if_neg h]
    · refine Measurable.ite measurableSet_Ioi ?_ measurable_const
      have := continuous_normPdf.measurable
      fun_prop
    · set f : ℝ → ℝ := fun x => if 0 < x then
        normPdf (log (x / S) / (sigma * √t)) / (sigma * √t * (x / S)) / S else 0 with hf
      have hzero : ∀ x, x ≤ 0 → f x = 0 := fun x h => by simp [hf, not_lt.2 h]
      ext A hA
      rw [Measure.map_apply hmeas hA, withDensity_apply _ hA]
      have hB : MeasurableSet ((fun w => S * exp (sigma * w)) ⁻¹' A) := hmeas hA
      have hd : ∀ w ∈ (fun w => S * exp (sigma * w)) ⁻¹' A, HasDerivWithinAt
          (fun w => S * exp (sigma * w)) (S * (exp (sigma * w) * sigma))
          ((fun w => S * exp (sigma * w)) ⁻¹' A) w := by
        intro w _
        have := (((hasDerivAt_id w).const_mul sigma).exp).const_mul S
        rw [mul_one] at this
        exact this.hasDerivWithinAt
      have hinj : InjOn (fun w => S * exp (sigma * w)) ((fun w => S * exp (sigma * w)) ⁻¹' A) := by
        intro a _ b _ hab
        simp only at hab
        have := exp_injective (mul_left_cancel₀ hS0.ne' hab)
        exact mul_left_cancel₀ hs.ne' this
      have himg : (fun w => S * exp (sigma * w)) '' ((fun w => S * exp (sigma * w)) ⁻¹' A) =
          A ∩ Ioi 0 := by
        rw [image_preimage_eq_inter_range]
        congr 1
        ext x
        simp only [mem_range, mem_Ioi]
        constructor
        · rintro ⟨w, rfl⟩; positivity
        · intro h
          refine ⟨log (x / S) / sigma, ?_⟩
          rw [mul_div_cancel₀ _ hs.ne', exp_log (by positivity), mul_div_cancel₀ _ hS0.ne']
      have hcv := lintegral_image_eq_lintegral_abs_deriv_mul hB hd hinj fun x => ENNReal.ofReal (f x)
      rw [himg] at hcv
      have hsplit : ∫⁻ x in A, ENNReal.ofReal (f x) = ∫⁻ x in A ∩ Ioi 0, ENNReal.ofReal (f x) := by
        rw [← lintegral_indicator hA, ← lintegral_indicator (hA.inter measurableSet_Ioi)]
        congr 1
        funext x
        by_cases h1 : x ∈ A
        · by_cases h2 : 0 < x
          · rw [indicator_of_mem h1, indicator_of_mem (show x ∈ A ∩ Ioi 0 from ⟨h1, h2⟩)]
          · rw [indicator_of_mem h1, indicator_of_notMem (fun h => h2 h.2), hzero x (not_lt.1 h2),
              ENNReal.ofReal_zero]
        · rw [indicator_of_notMem h1, indicator_of_notMem (fun h => h1 h.1)]
      rw [hsplit, hcv]
      obtain ⟨p, hp1, hp2, hp3, hp4⟩ := hg.pdf_eq
      rw [hp4, withDensity_apply _ hB]
      refine setLIntegral_congr_fun hB fun w hw => ?_
      have hpw := hp1 w
      unfold scipyNormPdf at hpw
      rw [if_pos hsq, Option.some.injEq, sub_zero] at hpw
      have hpos : 0 < S * exp (sigma * w) := by positivity
      have hfw : f (S * exp (sigma * w)) =
          normPdf (w / √t) / (sigma * √t * exp (sigma * w)) / S := by
        simp only [hf, if_pos hpos]
        have e : S * exp (sigma * w) / S = exp (sigma * w) := by field_simp
        rw [e, log_exp, mul_div_mul_left _ _ hs.ne']
      rw [hfw, ← ENNReal.ofReal_mul (abs_nonneg _), abs_of_pos (by positivity), ← hpw]
      congr 1
      field_simp

/-- Where the distribution has no density, NaN is returned, by normal distributions. -/
theorem C60_degenerate (x0 mu theta k sigma t x : ℝ) (h : t = 0 ∨ sigma = 0) :
    wienerPdf x0 mu sigma t x = none ∧ wienerCdf x0 mu sigma t x = none ∧
    lognormPdf x0 mu sigma t x = none ∧ lognormCdf x0 mu sigma t x = none ∧
    oruhPdf x0 theta k sigma t x = none ∧ oruhCdf x0 theta k sigma t x = none := by
  have h1 : ¬ 0 < sigma * √t := by rcases h with rfl | rfl <;> simp
  have h2 : ¬ 0 < √(oruhVar x0 theta k sigma t) := by
    unfold oruhVar
    rcases h with rfl | rfl <;> simp
  simp only [wienerPdf, wienerCdf, lognormPdf, lognormCdf, oruhPdf, oruhCdf, scipyNormPdf,
    scipyNormCdf, scipyLognormPdf, scipyLognormCdf, if_neg h1, if_neg h2, h1, false_and,
    if_false, and_self]

/-! ### cases meeting the hypotheses -/

example := C60_wiener 1 (1 / 10) (sigma := 1 / 5) (t := 2) (by norm_num) (by norm_num)

example := C60_oruh 1 (1 / 10) (k := 1 / 2) (sigma := 1 / 5) (t := 2) (by norm_num) (by norm_num)
  (by norm_num)

example := C60_lognorm (1 / 10) (x0 := 3) (sigma := 1 / 5) (t := 2) (by norm_num) (by norm_num)
  (by norm_num)

/-- Two equal and independent factors. -/
example : 0 < hw2fVar 0 0 0 0 1 1 1 1 0 1 := by
  unfold hw2fVar
  have : exp (-2 * 1 * 1) < 1 := by rw [exp_lt_one_iff]; norm_num
  norm_num at this ⊢

/-- The median of a lognormal process. -/
example : lognormCdf 1 (1 / 2) 1 1 1 = some (1 / 2) := by
  unfold lognormCdf scipyLognormCdf
  norm_num [normCdf_zero]

end Sdepy
