import Verif.Lemmas.Chain
import Mathlib.Probability.Distributions.Gaussian.Real
import Mathlib.Probability.Moments.Covariance
import Mathlib.Analysis.Convex.SpecificFunctions.Basic

/-!
# How far below zero the Euler scheme for square root processes goes
-/

set_option linter.unusedSectionVars false

open MeasureTheory ProbabilityTheory Real
open scoped ENNReal

namespace Sdepy

open Spec

variable {Ω : Type} [MeasurableSpace Ω] {P : Measure Ω} [IsProbabilityMeasure P]

theorem measurable_cirStep (theta k xi h : ℝ) :
    Measurable (Function.uncurry (cirStep theta k xi h)) := by
  have : Function.uncurry (cirStep theta k xi h) = fun p : ℝ × ℝ =>
    p.1 + k * (theta - max p.1 0) * h + xi * √(max p.1 0) * p.2 := rfl
  rw [this]
  fun_prop

/-- A function that grows below zero, on the scale of `d`. -/
noncomputable def below (d y : ℝ) : ℝ := exp (max (-y) 0 / d) - 1

theorem measurable_below (d : ℝ) : Measurable (below d) := by
  unfold below; fun_prop

theorem below_nonneg {d : ℝ} (hd : 0 < d) (y : ℝ) : 0 ≤ below d y := by
  unfold below
  have : 0 ≤ max (-y) 0 / d := div_nonneg (le_max_right _ _) hd.le
  linarith [one_le_exp this]

theorem exp_scale {q u : ℝ} (h0 : 0 ≤ q) (h1 : q ≤ 1) : exp (q * u) - 1 ≤ q * (exp u - 1) := by
  have := convexOn_exp.2 (Set.mem_univ u) (Set.mem_univ (0 : ℝ)) h0 (sub_nonneg.2 h1) (by ring)
  simp only [smul_eq_mul, mul_zero, add_zero, exp_zero, mul_one] at this
  linarith

theorem gauss_exp (v : NNReal) (a b : ℝ) :
    ∫⁻ z, ENNReal.ofReal (exp (a + b * z)) ∂gaussianReal 0 v =
      ENNReal.ofReal (exp (a + v * b ^ 2 / 2)) := by
  have hi : Integrable (fun z => exp (a + b * z)) (gaussianReal 0 v) := by
    simp only [exp_add]
    exact (integrable_exp_mul_gaussianReal b).const_mul _
  rw [← ofReal_integral_eq_lintegral_ofReal hi (Filter.Eventually.of_forall fun z => (exp_pos _).le)]
  congr 1
  have h := congrFun (mgf_fun_id_gaussianReal (μ := 0) (v := v)) b
  simp only [mgf, zero_mul, zero_add] at h
  simp only [exp_add, integral_const_mul, h]

/-- One step from a given value. -/
theorem below_gauss {theta k xi c d h : ℝ} (hth : 0 < theta) (hk : 0 < k) (hc : 0 < c)
    (hxi : c * xi ^ 2 ≤ 1) (hh : 0 < h) (hd : h ≤ d) (hkd : k * d ≤ 1 / 2) (y : ℝ) :
    ∫⁻ z, ENNReal.ofReal (below (d / c) (cirStep theta k xi h y z)) ∂gaussianReal 0 h.toNNReal ≤
      ENNReal.ofReal (exp (-(c * k * theta) * (h / d)) * below (d / c) y + h / d) := by
  have hd0 : 0 < d := hh.trans_le hd
  have hq0 : 0 ≤ h / d := by positivity
  have hq1 : h / d ≤ 1 := (div_le_one hd0).2 hd
  have hdc : 0 < d / c := by positivity
  rcases le_or_gt 0 y with hy | hy
  · have e0 : below (d / c) y = 0 := by
      unfold below
      rw [max_eq_right (by linarith)]; simp
    rw [e0, mul_zero, zero_add]
    set m := y + k * (theta - y) * h with hm
    have key : ∀ z, below (d / c) (cirStep theta k xi h y z) ≤
        h / d * exp (-(c / h) * m + (-(c / h) * (xi * √y)) * z) := by
      intro z
      have e1 : cirStep theta k xi h y z = m + xi * √y * z := by
        unfold cirStep
        rw [max_eq_left hy]
      have e2 : -(c / h) * m + (-(c / h) * (xi * √y)) * z = -(c / h) * cirStep theta k xi h y z := by
        rw [e1]; ring
      rw [e2]
      set r := cirStep theta k xi h y z
      unfold below
      rcases le_or_gt 0 r with hr | hr
      · rw [max_eq_right (by linarith)]
        simp only [zero_div, exp_zero, sub_self]
        positivity
      · rw [max_eq_left (by linarith)]
        have e3 : -r / (d / c) = h / d * (-(c / h) * r) := by field_simp
        rw [e3]
        refine (exp_scale hq0 hq1).trans ?_
        exact mul_le_mul_of_nonneg_left (by linarith) hq0
    calc _ ≤ ∫⁻ z, ENNReal.ofReal (h / d) * ENNReal.ofReal
            (exp (-(c / h) * m + (-(c / h) * (xi * √y)) * z)) ∂gaussianReal 0 h.toNNReal := by
          refine lintegral_mono fun z => ?_
          rw [← ENNReal.ofReal_mul hq0]
          exact ENNReal.ofReal_le_ofReal (key z)
      _ = ENNReal.ofReal (h / d) * ENNReal.ofReal
            (exp (-(c / h) * m + h.toNNReal * (-(c / h) * (xi * √y)) ^ 2 / 2)) := by
          rw [lintegral_const_mul _ (by fun_prop), gauss_exp]
      _ ≤ ENNReal.ofReal (h / d) * 1 := by
          gcongr
          rw [ENNReal.ofReal_le_one, exp_le_one_iff, Real.coe_toNNReal _ hh.le]
          have e4 : (-(c / h) * (xi * √y)) ^ 2 = (c / h) ^ 2 * xi ^ 2 * y := by
            rw [mul_pow, mul_pow, sq_sqrt hy]; ring
          rw [e4]
          have e5 : -(c / h) * m + h * ((c / h) ^ 2 * xi ^ 2 * y) / 2 =
              (c / h) * (-(y * (1 - k * h) + k * theta * h) + (c * xi ^ 2) * y / 2) := by
            rw [hm]; field_simp; ring
          rw [e5]
          refine mul_nonpos_of_nonneg_of_nonpos (by positivity) ?_
          have h1 : k * h ≤ 1 / 2 := (mul_le_mul_of_nonneg_left hd hk.le).trans hkd
          have h2 : (c * xi ^ 2) * y ≤ 1 * y := mul_le_mul_of_nonneg_right hxi hy
          have h3 : y * (1 - k * h) ≥ y * (1 / 2) := mul_le_mul_of_nonneg_left (by linarith) hy
          have h4 : 0 ≤ k * theta * h := by positivity
          linarith
      _ = _ := by rw [mul_one]
  · have e1 : ∀ z, cirStep theta k xi h y z = y + k * theta * h := by
      intro z
      unfold cirStep
      rw [max_eq_right hy.le]; simp
    simp only [e1, lintegral_const, measure_univ, mul_one]
    refine ENNReal.ofReal_le_ofReal ?_
    have hU := below_nonneg hdc y
    have hE := (exp_pos (-(c * k * theta) * (h / d))).le
    unfold below at hU ⊢
    rw [max_eq_left (by linarith : (0:ℝ) ≤ -y)] at hU ⊢
    rcases le_or_gt 0 (-(y + k * theta * h)) with hr | hr
    · rw [max_eq_left hr]
      have e2 : -(y + k * theta * h) / (d / c) = -(c * k * theta) * (h / d) + -y / (d / c) := by
        field_simp; ring
      rw [e2, exp_add]
      have : exp (-(c * k * theta) * (h / d)) ≤ 1 := by
        rw [exp_le_one_iff]
        have : 0 ≤ c * k * theta * (h / d) := by positivity
        linarith
      nlinarith
    · rw [max_eq_right hr.le]
      simp only [zero_div, exp_zero, sub_self]
      positivity

/-- One step from a random value. -/
theorem below_step {theta k xi c d h : ℝ} (hth : 0 < theta) (hk : 0 < k) (hc : 0 < c)
    (hxi : c * xi ^ 2 ≤ 1) (hh : 0 < h) (hd : h ≤ d) (hkd : k * d ≤ 1 / 2) {Y Z : Ω → ℝ}
    (hY : Measurable Y) (hZ : Measurable Z) (hl : HasLaw Z (gaussianReal 0 h.toNNReal) P)
    (hi : IndepFun Y Z P) :
    ∫⁻ ω, ENNReal.ofReal (below (d / c) (cirStep theta k xi h (Y ω) (Z ω))) ∂P ≤
      ENNReal.ofReal (exp (-(c * k * theta) * (h / d))) *
        ∫⁻ ω, ENNReal.ofReal (below (d / c) (Y ω)) ∂P + ENNReal.ofReal (h / d) := by
  have hd0 : 0 < d := hh.trans_le hd
  have hm : Measurable fun p : ℝ × ℝ =>
      ENNReal.ofReal (below (d / c) (cirStep theta k xi h p.1 p.2)) :=
    ((measurable_below _).comp (measurable_cirStep theta k xi h)).ennreal_ofReal
  have hj := (indepFun_iff_map_prod_eq_prod_map_map hY.aemeasurable hZ.aemeasurable).1 hi
  have : IsProbabilityMeasure (P.map Y) := Measure.isProbabilityMeasure_map hY.aemeasurable
  have hmb : Measurable fun y => ENNReal.ofReal (below (d / c) y) := (measurable_below _).ennreal_ofReal
  calc _ = ∫⁻ p, ENNReal.ofReal (below (d / c) (cirStep theta k xi h p.1 p.2))
          ∂(P.map fun ω => (Y ω, Z ω)) := by
        rw [lintegral_map hm (hY.prodMk hZ)]
    _ = ∫⁻ y, ∫⁻ z, ENNReal.ofReal (below (d / c) (cirStep theta k xi h y z))
          ∂gaussianReal 0 h.toNNReal ∂(P.map Y) := by
        rw [hj, hl.map_eq, lintegral_prod _ hm.aemeasurable]
    _ ≤ ∫⁻ y, (ENNReal.ofReal (exp (-(c * k * theta) * (h / d))) * ENNReal.ofReal (below (d / c) y) +
          ENNReal.ofReal (h / d)) ∂(P.map Y) := by
        refine lintegral_mono fun y => ?_
        refine (below_gauss hth hk hc hxi hh hd hkd y).trans ?_
        rw [ENNReal.ofReal_add (mul_nonneg (exp_pos _).le (below_nonneg (by positivity) y))
          (by positivity), ENNReal.ofReal_mul (exp_pos _).le]
    _ = _ := by
        rw [lintegral_add_right _ measurable_const, lintegral_const_mul _ hmb, lintegral_const,
          measure_univ, mul_one, lintegral_map hmb hY]

/-- A bound that holds for ever. -/
theorem below_bound {a q : ℝ} (ha : 0 < a) (h0 : 0 ≤ q) (h1 : q ≤ 1) :
    exp (-a * q) * (1 / (1 - exp (-a))) + q ≤ 1 / (1 - exp (-a)) := by
  have hp : 0 < 1 - exp (-a) := by
    have : exp (-a) < 1 := by rw [exp_lt_one_iff]; linarith
    linarith
  have h := exp_scale (u := -a) h0 h1
  have e : exp (-a * q) ≤ 1 - q * (1 - exp (-a)) := by
    rw [show -a * q = q * -a by ring]; linarith
  calc _ ≤ (1 - q * (1 - exp (-a))) * (1 / (1 - exp (-a))) + q := by gcongr
    _ = _ := by field_simp; ring

/-- Moments of the part below zero. -/
theorem below_moments {d M : ℝ} (hd : 0 < d) {Y : Ω → ℝ} (hY : Measurable Y)
    (h : ∫⁻ ω, ENNReal.ofReal (below d (Y ω)) ∂P ≤ ENNReal.ofReal M) (hM : 0 ≤ M) :
    MemLp (fun ω => max (-Y ω) 0) 2 P ∧ ∫ ω, max (-Y ω) 0 ∂P ≤ M * d ∧
      ∫ ω, max (-Y ω) 0 ^ 2 ∂P ≤ 2 * M * d ^ 2 := by
  have hm : Measurable fun ω => below d (Y ω) := (measurable_below d).comp hY
  have hint : Integrable (fun ω => below d (Y ω)) P := by
    refine ⟨hm.aestronglyMeasurable, ?_⟩
    rw [hasFiniteIntegral_iff_ofReal (Filter.Eventually.of_forall fun ω => below_nonneg hd _)]
    exact h.trans_lt ENNReal.ofReal_lt_top
  have hU : ∫ ω, below d (Y ω) ∂P ≤ M := by
    rw [← ENNReal.ofReal_le_ofReal_iff hM, ofReal_integral_eq_lintegral_ofReal hint
      (Filter.Eventually.of_forall fun ω => below_nonneg hd _)]
    exact h
  have hn : Measurable fun ω => max (-Y ω) 0 := by fun_prop
  have b1 : ∀ ω, max (-Y ω) 0 ≤ d * below d (Y ω) := by
    intro ω
    unfold below
    have := add_one_le_exp (max (-Y ω) 0 / d)
    calc max (-Y ω) 0 = d * (max (-Y ω) 0 / d) := by field_simp
      _ ≤ _ := by gcongr; linarith
  have b2 : ∀ ω, max (-Y ω) 0 ^ 2 ≤ 2 * d ^ 2 * below d (Y ω) := by
    intro ω
    unfold below
    set u := max (-Y ω) 0 / d with hu
    have hu0 : 0 ≤ u := div_nonneg (le_max_right _ _) hd.le
    have := quadratic_le_exp_of_nonneg hu0
    have e : max (-Y ω) 0 = d * u := by rw [hu]; field_simp
    rw [e, mul_pow]
    have : u ^ 2 / 2 ≤ exp u - 1 := by linarith
    have hd2 : 0 ≤ 2 * d ^ 2 := by positivity
    have := mul_le_mul_of_nonneg_left this hd2
    linarith
  have hi1 : Integrable (fun ω => max (-Y ω) 0) P :=
    (hint.const_mul d).mono' hn.aestronglyMeasurable (Filter.Eventually.of_forall fun ω => by
      rw [norm_of_nonneg (le_max_right _ _)]; exact b1 ω)
  have hi2 : Integrable (fun ω => max (-Y ω) 0 ^ 2) P :=
    (hint.const_mul (2 * d ^ 2)).mono' (hn.pow_const 2).aestronglyMeasurable
      (Filter.Eventually.of_forall fun ω => by rw [norm_of_nonneg (sq_nonneg _)]; exact b2 ω)
  refine ⟨(memLp_two_iff_integrable_sq hn.aestronglyMeasurable).2 hi2, ?_, ?_⟩
  · calc _ ≤ ∫ ω, d * below d (Y ω) ∂P := integral_mono hi1 (hint.const_mul d) b1
      _ = d * ∫ ω, below d (Y ω) ∂P := integral_const_mul _ _
      _ ≤ d * M := by gcongr
      _ = _ := by ring
  · calc _ ≤ ∫ ω, 2 * d ^ 2 * below d (Y ω) ∂P := integral_mono hi2 (hint.const_mul _) b2
      _ = 2 * d ^ 2 * ∫ ω, below d (Y ω) ∂P := integral_const_mul _ _
      _ ≤ 2 * d ^ 2 * M := by gcongr
      _ = _ := by ring

end Sdepy
