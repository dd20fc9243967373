import Mathlib.Probability.Distributions.Exponential
import Mathlib.Probability.Moments.Variance
import Mathlib.MeasureTheory.Integral.Gamma
import Mathlib.MeasureTheory.Integral.IntegralEqImproper
import Mathlib.MeasureTheory.Integral.ExpDecay

/-!
# Moments of the standard exponential distribution
-/

namespace Sdepy

open Real MeasureTheory Set Filter Topology ProbabilityTheory

theorem expMeasure_one :
    expMeasure 1 = (volume.restrict (Ioi 0)).withDensity fun x => ENNReal.ofReal (exp (-x)) := by
  have h : gammaPDF 1 1 = (Ici (0 : ℝ)).indicator fun x => ENNReal.ofReal (exp (-x)) := by
    funext x
    have := exponentialPDF_eq 1 x
    unfold exponentialPDF exponentialPDFReal at this
    rw [show gammaPDF 1 1 x = ENNReal.ofReal (gammaPDFReal 1 1 x) from rfl, this]
    by_cases hx : 0 ≤ x
    · simp [hx, indicator]
    · simp [hx, indicator]
  rw [expMeasure, gammaMeasure, h, withDensity_indicator measurableSet_Ici,
    Measure.restrict_congr_set Ioi_ae_eq_Ici.symm]

theorem integral_expMeasure (f : ℝ → ℝ) : ∫ x, f x ∂expMeasure 1 = ∫ x in Ioi (0 : ℝ), exp (-x) * f x := by
  rw [expMeasure_one, integral_withDensity_eq_integral_toReal_smul (by fun_prop) (by simp)]
  refine integral_congr_ae (.of_forall fun x => ?_)
  simp [ENNReal.toReal_ofReal (exp_pos _).le]

theorem integrable_expMeasure {f : ℝ → ℝ} :
    Integrable f (expMeasure 1) ↔ IntegrableOn (fun x => exp (-x) * f x) (Ioi 0) := by
  rw [expMeasure_one, integrable_withDensity_iff_integrable_smul' (by fun_prop) (by simp)]
  refine integrable_congr (.of_forall fun x => ?_)
  simp [ENNReal.toReal_ofReal (exp_pos _).le]

instance : IsProbabilityMeasure (expMeasure 1) := isProbabilityMeasure_expMeasure one_pos

theorem integrable_pow_expMeasure (n : ℕ) : Integrable (fun x => x ^ n) (expMeasure 1) := by
  rw [integrable_expMeasure]
  have := GammaIntegral_convergent (s := n + 1) (by positivity)
  simpa using this

theorem integral_pow_expMeasure (n : ℕ) : ∫ x, x ^ n ∂expMeasure 1 = n.factorial := by
  rw [integral_expMeasure, ← Gamma_nat_eq_factorial, Gamma_eq_integral (by positivity)]
  simp

/-- The average of `exp(a*x)`. -/
theorem exp_expMeasure {a : ℝ} (ha : a < 1) :
    Integrable (fun x => exp (a * x)) (expMeasure 1) ∧ ∫ x, exp (a * x) ∂expMeasure 1 = 1 / (1 - a) := by
  have e : ∀ x : ℝ, exp (-x) * exp (a * x) = exp ((a - 1) * x) := fun x => by
    rw [← exp_add]; ring_nf
  rw [integrable_expMeasure, integral_expMeasure]
  simp only [e]
  refine ⟨integrableOn_exp_mul_Ioi (by linarith) 0, ?_⟩
  rw [integral_exp_mul_Ioi (by linarith)]
  have : 1 - a ≠ 0 := by linarith
  have : a - 1 ≠ 0 := by linarith
  rw [mul_zero, exp_zero, div_eq_div_iff ‹_› ‹_›]
  ring

theorem not_integrable_exp_expMeasure {a : ℝ} (ha : 1 ≤ a) :
    ¬ Integrable (fun x => exp (a * x)) (expMeasure 1) := by
  rw [integrable_expMeasure]
  intro h
  have e : ∀ x : ℝ, exp (-x) * exp (a * x) = exp ((a - 1) * x) := fun x => by
    rw [← exp_add]; ring_nf
  simp only [e] at h
  have h1 : IntegrableOn (fun _ : ℝ => (1 : ℝ)) (Ioi 0) := by
    refine Integrable.mono h (by fun_prop) ?_
    refine (ae_restrict_iff' measurableSet_Ioi).2 (.of_forall fun x hx => ?_)
    have hx' : (0 : ℝ) < x := hx
    have : 1 ≤ exp ((a - 1) * x) := one_le_exp (mul_nonneg (by linarith) hx'.le)
    simpa [abs_of_pos (exp_pos _)] using this
  rw [integrableOn_const_iff] at h1
  simp at h1

end Sdepy
