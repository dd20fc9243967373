import Mathlib.Analysis.SpecialFunctions.Gamma.Basic
import Mathlib.Analysis.Normed.Algebra.Exponential
import Mathlib.Analysis.SpecialFunctions.Exponential
import Mathlib.MeasureTheory.Integral.DominatedConvergence

/-!
# Gamma densities, mixed with Poisson weights
-/

namespace Sdepy

open Real MeasureTheory Set Filter Topology
open scoped Nat

/-- Poisson weights. -/
noncomputable def poissonW (l : ℝ) (m : ℕ) : ℝ := exp (-l) * l ^ m / m !

/-- Mixture of gamma densities of rate `c` and shape `a`, `a + 1`..., with Poisson weights of mean `l`. -/
noncomputable def ncGamma (a c l x : ℝ) : ℝ :=
  ∑' m : ℕ, poissonW l m * (c ^ (a + m) / Gamma (a + m) * (x ^ (a + m - 1) * exp (-(c * x))))

theorem poissonW_nonneg {l : ℝ} (hl : 0 ≤ l) (m : ℕ) : 0 ≤ poissonW l m := by
  unfold poissonW; positivity

/-- Generating function. -/
theorem poissonW_gen (l r : ℝ) : HasSum (fun m => poissonW l m * r ^ m) (exp (l * r - l)) := by
  have h := (NormedSpace.expSeries_div_hasSum_exp (l * r)).mul_left (exp (-l))
  rw [← Real.exp_eq_exp_ℝ, ← exp_add] at h
  have e : l * r - l = -l + l * r := by ring
  rw [e]
  refine h.congr_fun fun m => ?_
  unfold poissonW
  rw [mul_pow]; ring

theorem poissonW_sum (l : ℝ) : HasSum (poissonW l) 1 := by
  have h := poissonW_gen l 1
  simpa using h

theorem poissonW_succ (l : ℝ) (m : ℕ) : poissonW l (m + 1) * (m + 1) = l * poissonW l m := by
  unfold poissonW
  rw [Nat.factorial_succ, pow_succ]
  push_cast
  have : (m ! : ℝ) ≠ 0 := by positivity
  have : (m + 1 : ℝ) ≠ 0 := by positivity
  field_simp

theorem poissonW_mean (l : ℝ) : HasSum (fun m => poissonW l m * m) l := by
  rw [← hasSum_nat_add_iff' 1]
  have h := (poissonW_sum l).mul_left l
  simp only [Finset.range_one, Finset.sum_singleton, Nat.cast_zero, mul_zero, sub_zero]
  rw [mul_one] at h
  refine h.congr_fun fun m => ?_
  push_cast
  exact poissonW_succ l m

theorem poissonW_fact2 (l : ℝ) : HasSum (fun m : ℕ => poissonW l m * (m * (m - 1))) (l ^ 2) := by
  rw [← hasSum_nat_add_iff' 1]
  have h := (poissonW_mean l).mul_left l
  simp only [Finset.range_one, Finset.sum_singleton, Nat.cast_zero, mul_zero, sub_zero, zero_mul]
  rw [sq]
  refine h.congr_fun fun m => ?_
  push_cast
  rw [← mul_assoc, poissonW_succ l m]
  ring

variable {a c l : ℝ} (ha : 0 < a) (hc : 0 < c) (hl : 0 ≤ l)

include ha hc hl in
theorem ncGamma_nonneg {x : ℝ} (hx : 0 < x) : 0 ≤ ncGamma a c l x := by
  refine tsum_nonneg fun m => mul_nonneg (poissonW_nonneg hl m) ?_
  have : 0 < Gamma (a + m) := Gamma_pos_of_pos (by positivity)
  positivity

include ha hc hl in
theorem ncGamma_integral (j : ℕ) {s : ℝ} (hs : 0 < c + s) {S : ℝ}
    (hS : HasSum (fun m : ℕ => poissonW l m * (c ^ (a + m) / Gamma (a + m) *
      ((1 / (c + s)) ^ (a + m + j) * Gamma (a + m + j)))) S) :
    ∫ x in Ioi (0 : ℝ), x ^ j * exp (-(s * x)) * ncGamma a c l x = S := by
  let F : ℕ → ℝ → ℝ := fun m x => poissonW l m * (c ^ (a + m) / Gamma (a + m) *
    (x ^ (a + m + j - 1) * exp (-((c + s) * x))))
  have hF0 : ∀ m, ∀ x ∈ Ioi (0 : ℝ), 0 ≤ F m x := by
    intro m x hx
    have h1 : 0 < Gamma (a + m) := Gamma_pos_of_pos (by positivity)
    have h2 : (0 : ℝ) < x := hx
    exact mul_nonneg (poissonW_nonneg hl m) (by positivity)
  have key : ∀ m : ℕ, ∫ x in Ioi (0 : ℝ), x ^ (a + m + j - 1) * exp (-((c + s) * x)) =
      (1 / (c + s)) ^ (a + m + j) * Gamma (a + m + j) := fun m =>
    integral_rpow_mul_exp_neg_mul_Ioi (by positivity) hs
  have hi : ∀ m : ℕ, Integrable (fun x => x ^ (a + m + j - 1) * exp (-((c + s) * x)))
      (volume.restrict (Ioi (0 : ℝ))) := by
    intro m
    refine .of_integral_ne_zero ?_
    rw [key]
    have : 0 < Gamma (a + m + j) := Gamma_pos_of_pos (by positivity)
    positivity
  have hFi : ∀ m, Integrable (F m) (volume.restrict (Ioi (0 : ℝ))) := fun m =>
    ((hi m).const_mul _).const_mul _
  have hFI : ∀ m, ∫ x in Ioi (0 : ℝ), F m x = poissonW l m * (c ^ (a + m) / Gamma (a + m) *
      ((1 / (c + s)) ^ (a + m + j) * Gamma (a + m + j))) := by
    intro m
    simp only [F]
    rw [integral_const_mul, integral_const_mul, key]
  have hsum : Summable fun m => ∫ x in Ioi (0 : ℝ), ‖F m x‖ := by
    refine hS.summable.congr fun m => ?_
    rw [← hFI]
    refine setIntegral_congr_fun measurableSet_Ioi fun x hx => ?_
    rw [norm_of_nonneg (hF0 m x hx)]
  have h := hasSum_integral_of_summable_integral_norm hFi hsum
  simp only [hFI] at h
  rw [← hS.unique h |>.symm]
  refine setIntegral_congr_fun measurableSet_Ioi fun x hx => ?_
  have hx' : (0 : ℝ) < x := hx
  simp only [ncGamma, F]
  rw [← tsum_mul_left]
  refine tsum_congr fun m => ?_
  rw [show a + m + j - 1 = (a + m - 1) + j by ring, rpow_add_natCast hx'.ne',
    show -((c + s) * x) = -(s * x) + -(c * x) by ring, exp_add]
  ring

include ha hc hl in
/-- Laplace transform. -/
theorem ncGamma_laplace {s : ℝ} (hs : 0 < c + s) :
    ∫ x in Ioi (0 : ℝ), exp (-(s * x)) * ncGamma a c l x =
      (c / (c + s)) ^ a * exp (-(l * s / (c + s))) := by
  have h := ncGamma_integral ha hc hl 0 hs (S := (c / (c + s)) ^ a * exp (-(l * s / (c + s)))) ?_
  · simpa using h
  · have h1 := (poissonW_gen l (c / (c + s))).mul_left ((c / (c + s)) ^ a)
    have e : l * (c / (c + s)) - l = -(l * s / (c + s)) := by field_simp; ring
    rw [e] at h1
    refine h1.congr_fun fun m => ?_
    have hG : Gamma (a + m) ≠ 0 := (Gamma_pos_of_pos (by positivity)).ne'
    simp only [Nat.cast_zero, add_zero]
    rw [show c ^ (a + m) / Gamma (a + m) * ((1 / (c + s)) ^ (a + m) * Gamma (a + m)) =
      c ^ (a + m) * (1 / (c + s)) ^ (a + m) by field_simp, ← mul_rpow hc.le (by positivity),
      mul_one_div, rpow_add_natCast (by positivity)]
    ring

include ha hc hl in
theorem ncGamma_mass : ∫ x in Ioi (0 : ℝ), ncGamma a c l x = 1 := by
  have h := ncGamma_laplace ha hc hl (s := 0) (by simpa using hc)
  simpa [hc.ne'] using h

include ha hc hl in
theorem ncGamma_mean : ∫ x in Ioi (0 : ℝ), x * ncGamma a c l x = (a + l) / c := by
  have h := ncGamma_integral ha hc hl 1 (s := 0) (by simpa using hc) (S := (a + l) / c) ?_
  · simpa using h
  · have h1 := (((poissonW_sum l).mul_left a).add (poissonW_mean l)).div_const c
    rw [mul_one] at h1
    refine h1.congr_fun fun m => ?_
    have hG : Gamma (a + m) ≠ 0 := (Gamma_pos_of_pos (by positivity)).ne'
    have h0 : (a + m : ℝ) ≠ 0 := by positivity
    simp only [Nat.cast_one, add_zero]
    rw [Gamma_add_one h0, rpow_add_one (by positivity),
      show c ^ (a + m) / Gamma (a + m) * ((1 / c) ^ (a + m) * (1 / c) * ((a + m) * Gamma (a + m))) =
      (c ^ (a + m) * (1 / c) ^ (a + m)) * ((a + m) / c) by field_simp, ← mul_rpow hc.le (by positivity),
      mul_one_div_cancel hc.ne', one_rpow]
    ring

include ha hc hl in
theorem ncGamma_second : ∫ x in Ioi (0 : ℝ), x ^ 2 * ncGamma a c l x =
    (a * (a + 1) + 2 * (a + 1) * l + l ^ 2) / c ^ 2 := by
  have h := ncGamma_integral ha hc hl 2 (s := 0) (by simpa using hc)
    (S := (a * (a + 1) + 2 * (a + 1) * l + l ^ 2) / c ^ 2) ?_
  · simpa using h
  · have h1 := ((((poissonW_sum l).mul_left (a * (a + 1))).add
      ((poissonW_mean l).mul_left (2 * (a + 1)))).add (poissonW_fact2 l)).div_const (c ^ 2)
    rw [mul_one] at h1
    refine h1.congr_fun fun m => ?_
    have hG : Gamma (a + m) ≠ 0 := (Gamma_pos_of_pos (by positivity)).ne'
    have h0 : (a + m : ℝ) ≠ 0 := by positivity
    have h0' : (a + m + 1 : ℝ) ≠ 0 := by positivity
    simp only [Nat.cast_ofNat, add_zero]
    rw [show (a + m + 2 : ℝ) = a + m + 1 + 1 by ring, Gamma_add_one h0', Gamma_add_one h0,
      rpow_add_one (by positivity), rpow_add_one (by positivity),
      show c ^ (a + m) / Gamma (a + m) * ((1 / c) ^ (a + m) * (1 / c) * (1 / c) *
        ((a + m + 1) * ((a + m) * Gamma (a + m)))) =
      (c ^ (a + m) * (1 / c) ^ (a + m)) * ((a + m) * (a + m + 1) / c ^ 2) by field_simp,
      ← mul_rpow hc.le (by positivity), mul_one_div_cancel hc.ne', one_rpow]
    ring

include ha hc hl in
theorem ncGamma_integrable : IntegrableOn (ncGamma a c l) (Ioi 0) ∧
    IntegrableOn (fun x => x * ncGamma a c l x) (Ioi 0) ∧
    IntegrableOn (fun x => x ^ 2 * ncGamma a c l x) (Ioi 0) := by
  refine ⟨.of_integral_ne_zero ?_, .of_integral_ne_zero ?_, .of_integral_ne_zero ?_⟩
  · rw [ncGamma_mass ha hc hl]; norm_num
  · rw [ncGamma_mean ha hc hl]; positivity
  · rw [ncGamma_second ha hc hl]; positivity

end Sdepy
