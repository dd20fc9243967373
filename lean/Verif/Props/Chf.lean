import Verif.Model.Analytical
import Mathlib.Probability.Distributions.Exponential
import Mathlib.Probability.Distributions.Poisson.Basic
import Mathlib.Probability.Independence.InfinitePi
import Mathlib.Probability.Independence.Integration
import Mathlib.Probability.ProductMeasure
import Mathlib.Analysis.SpecialFunctions.ImproperIntegrals

/-!
# Analytical characteristic functions (C54): Wiener, lognormal and jump-diffusion processes
-/

namespace Sdepy
namespace Spec
end Spec
open Spec Real MeasureTheory ProbabilityTheory Set Filter Topology
open Complex (I)

/-! ### specification -/

/-- Independent draws of the Wiener process at time `t`, of the number of jumps up to time `t`, when the
jump intensity is `lam`, and of the sizes of the first, second... jump, of law `ν`. -/
noncomputable def Spec.jumpDraws (t lam : ℝ) (ν : Measure ℝ) : Measure (ℝ × ℕ × (ℕ → ℝ)) :=
  (gaussianReal 0 t.toNNReal).prod
    ((poissonMeasure (lam * t).toNNReal).prod (Measure.infinitePi fun _ : ℕ => ν))

/-- The logarithm, at time `t`, of the solution of `dx = mu*x*dt + sigma*x*dw + x*(exp(j) - 1)*dn`, where
`n` counts jumps and `j` is the size of the jump: a geometric Brownian motion, where the sum of jumps so
far is added to the logarithm. -/
noncomputable def Spec.logJumpDiff (x0 mu sigma t : ℝ) (z : ℝ × ℕ × (ℕ → ℝ)) : ℝ :=
  log x0 + (mu - sigma ^ 2 / 2) * t + sigma * z.1 + ∑ i ∈ Finset.range z.2.1, z.2.2 i

/-- Jumps which are exponential of mean `a` with probability `pa`, otherwise the opposite of an exponential
of mean `b`. -/
noncomputable def Spec.twoSided (a b pa : ℝ) : Measure ℝ :=
  ENNReal.ofReal pa • expMeasure (1 / a) +
    ENNReal.ofReal (1 - pa) • (expMeasure (1 / b)).map fun x => -x

/-! ### lemmas -/

theorem integral_infinitePi_prod (ν : Measure ℝ) [IsProbabilityMeasure ν] (n : ℕ) {f : ℝ → ℂ}
    (hf : Measurable f) :
    ∫ j, ∏ i ∈ Finset.range n, f (j i) ∂Measure.infinitePi (fun _ : ℕ => ν) = (∫ x, f x ∂ν) ^ n := by
  have h1 : ∀ j : ℕ → ℝ, ∏ i ∈ Finset.range n, f (j i) =
      (fun y : (i : Finset.range n) → ℝ => ∏ i, f (y i)) ((Finset.range n).restrict j) := by
    intro j
    simp only [Finset.restrict]
    exact (Finset.prod_coe_sort (Finset.range n) fun i => f (j i)).symm
  rw [integral_congr_ae (Eventually.of_forall h1), integral_restrict_infinitePi (X := fun _ : ℕ => ℝ)
    (μ := fun _ : ℕ => ν) (f := fun y : (i : Finset.range n) → ℝ => ∏ i, f (y i))
    (Measurable.aestronglyMeasurable (by fun_prop)), integral_fintype_prod_eq_pow]
  simp

theorem integrable_infinitePi_prod (ν : Measure ℝ) [IsProbabilityMeasure ν] (n : ℕ) {f : ℝ → ℂ}
    (hf : Measurable f) (hi : Integrable f ν) :
    Integrable (fun j : ℕ → ℝ => ∏ i ∈ Finset.range n, f (j i)) (Measure.infinitePi fun _ : ℕ => ν) := by
  have h1 : (fun j : ℕ → ℝ => ∏ i ∈ Finset.range n, f (j i)) =
      (fun y : (i : Finset.range n) → ℝ => ∏ i, f (y i)) ∘ (Finset.range n).restrict := by
    funext j
    simp only [Finset.restrict, Function.comp]
    exact (Finset.prod_coe_sort (Finset.range n) fun i => f (j i)).symm
  rw [h1]
  have h2 : Integrable (fun y : (i : Finset.range n) → ℝ => ∏ i, f (y i))
      (Measure.pi fun _ : Finset.range n => ν) := Integrable.fintype_prod fun _ => hi
  rw [← Measure.infinitePi_map_restrict (μ := fun _ : ℕ => ν) (I := Finset.range n)] at h2
  exact h2.comp_measurable (by fun_prop)

theorem measurable_jumps {f : ℝ → ℂ} (hf : Measurable f) :
    Measurable fun z : ℕ × (ℕ → ℝ) => ∏ i ∈ Finset.range z.1, f (z.2 i) := by
  refine measurable_from_prod_countable_right fun n => ?_
  simp only
  fun_prop

/-- Averages of products over a random number of jumps. -/
theorem integral_jumps (r : NNReal) (ν : Measure ℝ) [IsProbabilityMeasure ν] {f : ℝ → ℂ}
    (hf : Measurable f) (hi : Integrable f ν) :
    ∫ z, ∏ i ∈ Finset.range z.1, f (z.2 i) ∂(poissonMeasure r).prod
      (Measure.infinitePi fun _ : ℕ => ν) = Complex.exp (r * ((∫ x, f x ∂ν) - 1)) := by
  have hint : Integrable (fun z : ℕ × (ℕ → ℝ) => ∏ i ∈ Finset.range z.1, f (z.2 i))
      ((poissonMeasure r).prod (Measure.infinitePi fun _ : ℕ => ν)) := by
    rw [integrable_prod_iff (measurable_jumps hf).aestronglyMeasurable]
    refine ⟨Eventually.of_forall fun n => integrable_infinitePi_prod ν n hf hi, ?_⟩
    have hn : ∀ n : ℕ, ∫ j : ℕ → ℝ, ‖∏ i ∈ Finset.range n, f (j i)‖
        ∂Measure.infinitePi (fun _ : ℕ => ν) = (∫ x, ‖f x‖ ∂ν) ^ n := by
      intro n
      have := integral_infinitePi_prod ν n (f := fun x => ((‖f x‖ : ℝ) : ℂ))
        (by fun_prop)
      simp only [← Complex.ofReal_prod] at this
      have e1 := integral_ofReal (𝕜 := ℂ) (μ := Measure.infinitePi fun _ : ℕ => ν)
        (f := fun j : ℕ → ℝ => ∏ i ∈ Finset.range n, ‖f (j i)‖)
      have e2 := integral_ofReal (𝕜 := ℂ) (μ := ν) (f := fun x => ‖f x‖)
      simp only [norm_prod]
      have e3 := (e1.symm.trans this).trans (congrArg (· ^ n) e2)
      exact_mod_cast e3
    simp only [hn]
    rw [integrable_poissonMeasure_iff]
    set m := ∫ x, ‖f x‖ ∂ν with hm
    have hm0 : 0 ≤ m := integral_nonneg fun x => norm_nonneg _
    have := (Real.summable_pow_div_factorial (r * m)).mul_left (exp (-r))
    refine this.congr fun n => ?_
    rw [Real.norm_of_nonneg (by positivity)]
    rw [mul_pow]; ring
  rw [integral_prod _ hint]
  simp only [integral_infinitePi_prod ν _ hf]
  rw [integral_poissonMeasure]
  set m := ∫ x, f x ∂ν
  have h1 : ∀ n : ℕ, (exp (-r) * r ^ n / (n.factorial : ℝ)) • m ^ n =
      ((exp (-r) : ℝ) : ℂ) * ((r * m) ^ n / n.factorial) := by
    intro n
    rw [Complex.real_smul]
    push_cast
    rw [mul_pow]; ring
  simp only [h1]
  rw [tsum_mul_left]
  have h2 : ∑' n : ℕ, ((r : ℂ) * m) ^ n / (n.factorial : ℂ) = Complex.exp (r * m) := by
    rw [Complex.exp_eq_exp_ℂ, NormedSpace.exp_eq_tsum_div]
  rw [h2]
  push_cast
  rw [← Complex.exp_add]
  congr 1
  ring

theorem integrable_cexp_iff {ν : Measure ℝ} (z : ℂ) :
    Integrable (fun x : ℝ => Complex.exp (z * x)) ν ↔ Integrable (fun x : ℝ => exp (z.re * x)) ν := by
  rw [← integrable_norm_iff (Measurable.aestronglyMeasurable (by fun_prop))]
  simp [Complex.norm_exp]

/-- Averages of exponentials of the logarithm of a jump-diffusion process. -/
theorem integral_logJumpDiff (x0 mu sigma : ℝ) {t lam : ℝ} (ht : 0 ≤ t) (hlam : 0 ≤ lam)
    (ν : Measure ℝ) [IsProbabilityMeasure ν] (z : ℂ)
    (hi : Integrable (fun x : ℝ => Complex.exp (z * x)) ν) :
    ∫ s, Complex.exp (z * logJumpDiff x0 mu sigma t s) ∂jumpDraws t lam ν =
      Complex.exp (z * (log x0 : ℝ) + t * (z * (mu - sigma ^ 2 / 2) + sigma ^ 2 * z ^ 2 / 2 +
        lam * ((∫ x : ℝ, Complex.exp (z * x) ∂ν) - 1))) := by
  have hpt : ∀ s : ℝ × ℕ × (ℕ → ℝ), Complex.exp (z * logJumpDiff x0 mu sigma t s) =
      (Complex.exp (z * ((log x0 + (mu - sigma ^ 2 / 2) * t : ℝ))) * Complex.exp (z * sigma * s.1)) *
      ∏ i ∈ Finset.range s.2.1, Complex.exp (z * (s.2.2 i)) := by
    intro s
    rw [← Complex.exp_sum, ← Complex.exp_add, ← Complex.exp_add]
    congr 1
    unfold logJumpDiff
    push_cast
    rw [← Finset.mul_sum]
    ring
  simp only [hpt]
  unfold jumpDraws
  rw [integral_prod_mul (fun w : ℝ => Complex.exp (z * ((log x0 + (mu - sigma ^ 2 / 2) * t : ℝ))) *
    Complex.exp (z * sigma * w)) (fun y : ℕ × (ℕ → ℝ) =>
    ∏ i ∈ Finset.range y.1, Complex.exp (z * (y.2 i)))]
  rw [integral_jumps _ ν (by fun_prop) hi, integral_const_mul]
  have hg := complexMGF_id_gaussianReal (μ := 0) (v := t.toNNReal) (z * sigma)
  simp only [complexMGF, id] at hg
  rw [hg, ← Complex.exp_add, ← Complex.exp_add]
  congr 1
  have h1 : ((t.toNNReal : ℝ) : ℂ) = t := by rw [Real.coe_toNNReal _ ht]
  have h2 : (((lam * t).toNNReal : ℝ) : ℂ) = lam * t := by
    rw [Real.coe_toNNReal _ (by positivity)]; push_cast; ring
  rw [h1, h2]
  push_cast
  ring

theorem measurable_logJumpDiff (x0 mu sigma t : ℝ) : Measurable (logJumpDiff x0 mu sigma t) := by
  unfold logJumpDiff
  have h : Measurable fun z : ℕ × (ℕ → ℝ) => ∑ i ∈ Finset.range z.1, z.2 i := by
    refine measurable_from_prod_countable_right fun n => ?_
    simp only
    fun_prop
  exact (by fun_prop : Measurable fun z : ℝ × ℕ × (ℕ → ℝ) =>
    log x0 + (mu - sigma ^ 2 / 2) * t + sigma * z.1).add (h.comp measurable_snd)

theorem expMeasure_eq {r : ℝ} (hr : 0 < r) :
    expMeasure r = (volume.restrict (Ioi 0)).withDensity
      fun x => ENNReal.ofReal (r * exp (-(r * x))) := by
  have h : gammaPDF 1 r = (Ici (0 : ℝ)).indicator fun x => ENNReal.ofReal (r * exp (-(r * x))) := by
    funext x
    have := exponentialPDF_eq r x
    unfold exponentialPDF exponentialPDFReal at this
    rw [show gammaPDF 1 r x = ENNReal.ofReal (gammaPDFReal 1 r x) from rfl, this]
    by_cases hx : 0 ≤ x
    · simp [hx, indicator]
    · simp [hx, indicator]
  rw [expMeasure, gammaMeasure, h, withDensity_indicator measurableSet_Ici,
    Measure.restrict_congr_set Ioi_ae_eq_Ici.symm]

/-- Averages of exponentials of an exponential variate. -/
theorem cexp_expMeasure {r : ℝ} (hr : 0 < r) {z : ℂ} (hz : z.re < r) :
    Integrable (fun x : ℝ => Complex.exp (z * x)) (expMeasure r) ∧
    ∫ x : ℝ, Complex.exp (z * x) ∂expMeasure r = r / (r - z) := by
  have e : ∀ x : ℝ, (ENNReal.ofReal (r * exp (-(r * x)))).toReal • Complex.exp (z * x) =
      r * Complex.exp ((z - r) * x) := by
    intro x
    rw [ENNReal.toReal_ofReal (by positivity), Complex.real_smul]
    push_cast
    rw [mul_assoc, ← Complex.exp_add]
    congr 2
    ring
  have hre : (z - r).re < 0 := by simp; linarith
  rw [expMeasure_eq hr, integrable_withDensity_iff_integrable_smul' (by fun_prop) (by simp),
    integral_withDensity_eq_integral_toReal_smul (by fun_prop) (by simp)]
  simp only [e]
  refine ⟨(integrableOn_exp_mul_complex_Ioi hre 0).const_mul (r : ℂ), ?_⟩
  rw [integral_const_mul, integral_exp_mul_complex_Ioi hre]
  have hne : (r : ℂ) - z ≠ 0 := by
    intro h
    have := congrArg Complex.re h
    simp at this
    linarith
  have hne' : z - r ≠ 0 := by
    intro h; apply hne; rw [← neg_sub, h, neg_zero]
  simp
  field_simp
  ring

theorem twoSided_prob {a b pa : ℝ} (ha : 0 < a) (hb : 0 < b) (h0 : 0 ≤ pa) (h1 : pa ≤ 1) :
    IsProbabilityMeasure (twoSided a b pa) := by
  have i1 := isProbabilityMeasure_expMeasure (r := 1 / a) (by positivity)
  have i2 := isProbabilityMeasure_expMeasure (r := 1 / b) (by positivity)
  have i3 : IsProbabilityMeasure ((expMeasure (1 / b)).map fun x => -x) :=
    Measure.isProbabilityMeasure_map (by fun_prop)
  refine ⟨?_⟩
  unfold twoSided
  simp only [Measure.coe_add, Measure.coe_smul, Pi.add_apply, Pi.smul_apply, measure_univ,
    smul_eq_mul, mul_one]
  rw [← ENNReal.ofReal_add h0 (by linarith)]
  simp

/-- Averages of exponentials of a jump of double exponential law. -/
theorem cexp_twoSided {a b pa : ℝ} (ha : 0 < a) (hb : 0 < b) (h0 : 0 ≤ pa) (h1 : pa ≤ 1) {z : ℂ}
    (hza : z.re * a < 1) (hzb : -1 < z.re * b) :
    Integrable (fun x : ℝ => Complex.exp (z * x)) (twoSided a b pa) ∧
    ∫ x : ℝ, Complex.exp (z * x) ∂twoSided a b pa =
      pa * ((1 / a) / (1 / a - z)) + (1 - pa) * ((1 / b) / (1 / b + z)) := by
  obtain ⟨i1, e1⟩ := cexp_expMeasure (r := 1 / a) (by positivity) (z := z)
    (by rw [lt_div_iff₀ ha]; exact hza)
  obtain ⟨i2, e2⟩ := cexp_expMeasure (r := 1 / b) (by positivity) (z := -z)
    (by rw [lt_div_iff₀ hb]; simp; linarith)
  have i3 : Integrable (fun x : ℝ => Complex.exp (z * x)) ((expMeasure (1 / b)).map fun x => -x) := by
    rw [integrable_map_measure (Measurable.aestronglyMeasurable (by fun_prop)) (by fun_prop)]
    refine i2.congr (Eventually.of_forall fun x => ?_)
    simp
  have e3 : ∫ x : ℝ, Complex.exp (z * x) ∂((expMeasure (1 / b)).map fun x => -x) =
      (1 / b) / (1 / b + z) := by
    rw [integral_map (by fun_prop) (Measurable.aestronglyMeasurable (by fun_prop))]
    have : ∀ x : ℝ, Complex.exp (z * ((-x : ℝ) : ℂ)) = Complex.exp (-z * x) := by
      intro x; congr 1; push_cast; ring
    simp only [this]
    rw [e2]; push_cast; ring
  unfold twoSided
  have j1 := i1.smul_measure (c := ENNReal.ofReal pa) ENNReal.ofReal_ne_top
  have j3 := i3.smul_measure (c := ENNReal.ofReal (1 - pa)) ENNReal.ofReal_ne_top
  refine ⟨j1.add_measure j3, ?_⟩
  rw [integral_add_measure j1 j3, integral_smul_measure, integral_smul_measure, e1, e3,
    ENNReal.toReal_ofReal h0, ENNReal.toReal_ofReal (by linarith), Complex.real_smul,
    Complex.real_smul]
  push_cast
  ring

/-! ### C54 -/

/-- `wiener_chf` is the characteristic function of the normal distribution of mean `wiener_mean` and
variance `wiener_var`, also for complex `u`. -/
theorem C54_wiener (x0 mu sigma : ℝ) {t : ℝ} (ht : 0 ≤ t) (u : ℂ) :
    ∫ x : ℝ, Complex.exp (I * u * x) ∂gaussianReal (wienerMean x0 mu sigma t)
      (wienerVar x0 mu sigma t).toNNReal = wienerChf x0 mu sigma t u := by
  have hg := complexMGF_id_gaussianReal (μ := wienerMean x0 mu sigma t)
    (v := (wienerVar x0 mu sigma t).toNNReal) (I * u)
  simp only [complexMGF, id] at hg
  have hv : 0 ≤ wienerVar x0 mu sigma t := mul_nonneg (mul_self_nonneg _) ht
  rw [hg, Real.coe_toNNReal _ hv]
  unfold wienerChf wienerMean wienerVar
  congr 1
  push_cast
  rw [mul_pow, Complex.I_sq]
  ring

/-- `lognorm_log_chf` is the characteristic function of the logarithm of the geometric Brownian motion. -/
theorem C54_lognorm (x0 mu sigma : ℝ) {t : ℝ} (ht : 0 ≤ t) (u : ℂ) :
    ∫ w : ℝ, Complex.exp (I * u * ((log x0 + (mu - sigma ^ 2 / 2) * t + sigma * w : ℝ)))
      ∂gaussianReal 0 t.toNNReal = lognormLogChf x0 mu sigma t u := by
  have hg := complexMGF_id_gaussianReal (μ := 0) (v := t.toNNReal) (I * u * sigma)
  simp only [complexMGF, id] at hg
  have e : ∀ w : ℝ, Complex.exp (I * u * ((log x0 + (mu - sigma ^ 2 / 2) * t + sigma * w : ℝ))) =
      Complex.exp (I * u * ((log x0 + (mu - sigma ^ 2 / 2) * t : ℝ))) *
        Complex.exp (I * u * sigma * w) := by
    intro w
    rw [← Complex.exp_add]; congr 1; push_cast; ring
  simp only [e]
  rw [integral_const_mul, hg, ← Complex.exp_add, Real.coe_toNNReal _ ht]
  unfold lognormLogChf
  simp only
  congr 1
  push_cast
  rw [mul_pow, mul_pow, Complex.I_sq]
  ring

/-- `mjd_log_chf` is the characteristic function of the logarithm of a jump-diffusion process, with
normal jumps of mean `a` and standard deviation `b`. -/
theorem C54_mjd (x0 mu sigma a b : ℝ) {t lam : ℝ} (ht : 0 ≤ t) (hlam : 0 ≤ lam) (u : ℂ) :
    ∫ s, Complex.exp (I * u * logJumpDiff x0 mu sigma t s)
      ∂jumpDraws t lam (gaussianReal a (b ^ 2).toNNReal) = mjdLogChf x0 mu sigma lam a b t u := by
  have hg := complexMGF_id_gaussianReal (μ := a) (v := (b ^ 2).toNNReal) (I * u)
  simp only [complexMGF, id] at hg
  rw [integral_logJumpDiff x0 mu sigma ht hlam _ _
    ((integrable_cexp_iff _).2 (integrable_exp_mul_gaussianReal _)), hg,
    Real.coe_toNNReal _ (sq_nonneg b)]
  unfold mjdLogChf
  simp only
  congr 1
  have e : (I * u * (a : ℂ) + ((b ^ 2 : ℝ) : ℂ) * (I * u) ^ 2 / 2) = I * a * u - b * b * u * u / 2 := by
    push_cast
    rw [mul_pow, Complex.I_sq]
    ring
  rw [e]
  push_cast
  rw [mul_pow, Complex.I_sq]
  ring

/-- `mjd_mean` is the expected value of the jump-diffusion process. -/
theorem C54_mjd_mean (mu sigma a b : ℝ) {x0 t lam : ℝ} (hx : 0 < x0) (ht : 0 ≤ t) (hlam : 0 ≤ lam) :
    ∫ s, exp (logJumpDiff x0 mu sigma t s) ∂jumpDraws t lam (gaussianReal a (b ^ 2).toNNReal) =
      mjdMean x0 mu sigma lam a b t := by
  have hg := complexMGF_id_gaussianReal (μ := a) (v := (b ^ 2).toNNReal) 1
  simp only [complexMGF, id] at hg
  have h := integral_logJumpDiff x0 mu sigma ht hlam (gaussianReal a (b ^ 2).toNNReal) 1
    ((integrable_cexp_iff _).2 (integrable_exp_mul_gaussianReal _))
  rw [hg, Real.coe_toNNReal _ (sq_nonneg b)] at h
  simp only [one_mul, ← Complex.ofReal_exp, integral_ofReal] at h
  have e : Complex.exp ((log x0 : ℝ) + t * ((mu - sigma ^ 2 / 2) + sigma ^ 2 * 1 ^ 2 / 2 +
      lam * (Complex.exp (a + ((b ^ 2 : ℝ) : ℂ) * 1 ^ 2 / 2) - 1))) =
      ((mjdMean x0 mu sigma lam a b t : ℝ) : ℂ) := by
    unfold mjdMean
    simp only
    rw [← exp_log hx, ← exp_add, Real.log_exp, Complex.ofReal_exp]
    push_cast
    congr 1
    ring_nf
  rw [e] at h
  exact_mod_cast h

/-- `kou_log_chf` is the characteristic function of the logarithm of a jump-diffusion process, with
double exponential jumps, upwards with probability `pa` and mean `a`, otherwise downwards with mean `b`.
It is so for complex `u`, provided that the average is defined. -/
theorem C54_kou (x0 mu sigma : ℝ) {a b pa t lam : ℝ} (ht : 0 ≤ t) (hlam : 0 ≤ lam) (ha : 0 < a)
    (hb : 0 < b) (h0 : 0 ≤ pa) (h1 : pa ≤ 1) (u : ℂ) (hu1 : -u.im * a < 1) (hu2 : -1 < -u.im * b) :
    ∫ s, Complex.exp (I * u * logJumpDiff x0 mu sigma t s) ∂jumpDraws t lam (twoSided a b pa) =
      kouLogChf x0 mu sigma lam a b pa t u := by
  have hre : (I * u).re = -u.im := by simp
  obtain ⟨hi, he⟩ := cexp_twoSided ha hb h0 h1 (z := I * u) (by rw [hre]; exact hu1)
    (by rw [hre]; exact hu2)
  have := twoSided_prob ha hb h0 h1
  rw [integral_logJumpDiff x0 mu sigma ht hlam _ _ hi, he]
  unfold kouLogChf
  simp only
  congr 1
  have ha' : (a : ℂ) ≠ 0 := by exact_mod_cast ha.ne'
  have hb' : (b : ℂ) ≠ 0 := by exact_mod_cast hb.ne'
  have hna : (1 / a - I * u : ℂ) ≠ 0 := by
    intro h
    have := congrArg Complex.re h
    have e : (1 / (a : ℂ)).re = 1 / a := by rw [← Complex.ofReal_one, ← Complex.ofReal_div, Complex.ofReal_re]
    rw [Complex.sub_re, hre, e, Complex.zero_re, sub_eq_zero] at this
    rw [← this] at hu1
    field_simp at hu1
    linarith
  have hnb : (1 / b + I * u : ℂ) ≠ 0 := by
    intro h
    have := congrArg Complex.re h
    have e : (1 / (b : ℂ)).re = 1 / b := by rw [← Complex.ofReal_one, ← Complex.ofReal_div, Complex.ofReal_re]
    rw [Complex.add_re, hre, e, Complex.zero_re] at this
    have h2 : -u.im = -(1 / b) := by linarith
    rw [h2] at hu2
    field_simp at hu2
    linarith
  have key : (pa : ℂ) * ((1 / a) / (1 / a - I * u)) + (1 - pa) * ((1 / b) / (1 / b + I * u)) - 1 =
      I * u * (pa / (1 / a - I * u) - ((1 - pa : ℝ) : ℂ) / (1 / b + I * u)) := by
    have e1 : (1 / (a : ℂ)) / (1 / a - I * u) = 1 + I * u / (1 / a - I * u) := by
      rw [eq_comm, ← eq_sub_iff_add_eq', div_sub_one hna]; congr 1; ring
    have e2 : (1 / (b : ℂ)) / (1 / b + I * u) = 1 - I * u / (1 / b + I * u) := by
      rw [eq_sub_iff_add_eq, ← add_div, div_self hnb]
    rw [e1, e2]
    push_cast
    ring
  rw [key]
  push_cast
  rw [mul_pow, Complex.I_sq]
  ring

/-- `kou_mean` is the expected value of the jump-diffusion process, if upward jumps have mean less than
one (otherwise, the expected value is infinite: see `C54_kou_mean_false`). -/
theorem C54_kou_mean_partial (mu sigma : ℝ) {x0 a b pa t lam : ℝ} (hx : 0 < x0) (ht : 0 ≤ t) (hlam : 0 ≤ lam)
    (ha : 0 < a) (ha1 : a < 1) (hb : 0 < b) (h0 : 0 ≤ pa) (h1 : pa ≤ 1) :
    ∫ s, exp (logJumpDiff x0 mu sigma t s) ∂jumpDraws t lam (twoSided a b pa) =
      kouMean x0 mu sigma lam a b pa t := by
  obtain ⟨hi, he⟩ := cexp_twoSided ha hb h0 h1 (z := 1) (by simpa using ha1) (by simp; linarith)
  have := twoSided_prob ha hb h0 h1
  have h := integral_logJumpDiff x0 mu sigma ht hlam (twoSided a b pa) 1 hi
  rw [he] at h
  simp only [one_mul, ← Complex.ofReal_exp, integral_ofReal] at h
  have e : Complex.exp ((log x0 : ℝ) + t * ((mu - sigma ^ 2 / 2) + sigma ^ 2 * 1 ^ 2 / 2 +
      lam * (pa * ((1 / a) / (1 / a - 1)) + (1 - pa) * ((1 / b) / (1 / b + 1)) - 1))) =
      ((kouMean x0 mu sigma lam a b pa t : ℝ) : ℂ) := by
    unfold kouMean
    simp only
    rw [← exp_log hx, ← exp_add, Real.log_exp, Complex.ofReal_exp]
    congr 1
    have e1 : (1 / a) / (1 / a - 1) = 1 / (1 - a) := by
      have : 1 - a ≠ 0 := by linarith
      field_simp
    have e2 : (1 / b) / (1 / b + 1) = 1 / (1 + b) := by
      have : 1 + b ≠ 0 := by linarith
      field_simp
    have e1' : (1 / (a : ℂ)) / (1 / a - 1) = 1 / (1 - a) := by exact_mod_cast e1
    have e2' : (1 / (b : ℂ)) / (1 / b + 1) = 1 / (1 + b) := by exact_mod_cast e2
    rw [e1', e2']
    push_cast
    ring
  rw [e] at h
  exact_mod_cast h

theorem not_integrable_exp_twoSided {a b pa : ℝ} (ha : 1 ≤ a) (h0 : 0 < pa) :
    ¬ Integrable (fun x : ℝ => exp x) (twoSided a b pa) := by
  intro h
  unfold twoSided at h
  have h1 := h.left_of_add_measure
  rw [integrable_smul_measure (by simpa using h0) ENNReal.ofReal_ne_top,
    expMeasure_eq (by positivity), integrable_withDensity_iff_integrable_smul' (by fun_prop) (by simp)]
    at h1
  have h2 : IntegrableOn (fun _ : ℝ => 1 / a) (Ioi 0) := by
    refine Integrable.mono' h1 (by fun_prop) ?_
    refine (ae_restrict_iff' measurableSet_Ioi).2 (Eventually.of_forall fun x hx => ?_)
    simp only [mem_Ioi] at hx
    rw [ENNReal.toReal_ofReal (by positivity), smul_eq_mul, mul_assoc, ← exp_add,
      Real.norm_of_nonneg (by positivity)]
    have : 0 ≤ -(1 / a * x) + x := by
      have : 1 / a ≤ 1 := by rw [div_le_one (by linarith)]; exact ha
      nlinarith
    have := one_le_exp this
    have : 0 < 1 / a := by positivity
    nlinarith
  rw [integrableOn_const_iff] at h2
  rcases h2 with h2 | h2
  · have : 0 < 1 / a := by positivity
    rw [enorm_eq_zero] at h2
    linarith
  · simp at h2

/-- If upward jumps have mean not less than one, and may happen, the expected value is infinite.
However, `kou_mean` is finite, unless the mean of upward jumps is exactly one: it may even be less than
the value of a process with no jumps, that bounds the expected value from below. -/
theorem C54_kou_mean_false : ∃ x0 mu sigma lam a b pa t : ℝ, 0 < x0 ∧ 0 < t ∧ 0 < lam ∧ 0 < a ∧ 0 < b ∧
    0 ≤ pa ∧ pa ≤ 1 ∧ ¬ Integrable (fun s => exp (logJumpDiff x0 mu sigma t s))
      (jumpDraws t lam (twoSided a b pa)) ∧ kouMean x0 mu sigma lam a b pa t = exp (-2) := by
  refine ⟨1, 0, 0, 1, 2, 1, 1, 1, by norm_num, by norm_num, by norm_num, by norm_num, by norm_num,
    by norm_num, by norm_num, ?_, ?_⟩
  · have hp : IsProbabilityMeasure (twoSided 2 1 1) :=
      twoSided_prob (by norm_num) (by norm_num) (by norm_num) (by norm_num)
    intro h
    unfold jumpDraws at h
    obtain ⟨w, hw⟩ := h.prod_right_ae.exists
    have h1 := hw.prod_right_ae
    have h2 : Integrable (fun j : ℕ → ℝ => exp (logJumpDiff 1 0 0 1 (w, 1, j)))
        (Measure.infinitePi fun _ : ℕ => twoSided 2 1 1) := by
      by_contra hc
      have : (poissonMeasure (1 * 1 : ℝ).toNNReal) {1} ≠ 0 := by
        rw [poissonMeasure_singleton]
        simp
        positivity
      apply this
      rw [ae_iff] at h1
      refine measure_mono_null ?_ h1
      intro n hn
      rw [mem_singleton_iff] at hn
      subst hn
      exact hc
    simp only [logJumpDiff, log_one, zero_mul, add_zero, Finset.range_one, Finset.sum_singleton,
      ne_eq, OfNat.ofNat_ne_zero, not_false_eq_true, zero_pow, zero_div, sub_zero, mul_one,
      zero_add] at h2
    have h3 : Integrable (fun x : ℝ => exp x)
        ((Measure.infinitePi fun _ : ℕ => twoSided 2 1 1).map fun j : ℕ → ℝ => j 0) := by
      have hm : Measurable fun j : ℕ → ℝ => j 0 := measurable_pi_apply 0
      rw [integrable_map_measure (by fun_prop) hm.aemeasurable]
      exact h2
    rw [Measure.infinitePi_map_eval (fun _ : ℕ => twoSided 2 1 1) 0] at h3
    exact not_integrable_exp_twoSided (by norm_num) (by norm_num) h3
  · unfold kouMean
    norm_num

/-- At zero, characteristic functions are one. -/
theorem C54_zero (x0 mu sigma lam a b pa t : ℝ) :
    wienerChf x0 mu sigma t 0 = 1 ∧ lognormLogChf x0 mu sigma t 0 = 1 ∧
    mjdLogChf x0 mu sigma lam a b t 0 = 1 ∧ kouLogChf x0 mu sigma lam a b pa t 0 = 1 := by
  simp [wienerChf, lognormLogChf, mjdLogChf, kouLogChf]

/-! ### cases meeting the hypotheses -/

example := C54_mjd 2 (1 / 10) (1 / 5) (-1 / 10) (1 / 4) (t := 3) (lam := 2) (by norm_num) (by norm_num)

example := C54_mjd_mean (1 / 10) (1 / 5) (-1 / 10) (1 / 4) (x0 := 2) (t := 3) (lam := 2) (by norm_num)
  (by norm_num) (by norm_num)

example := C54_kou 2 (1 / 10) (1 / 5) (a := 1 / 2) (b := 1 / 3) (pa := 1 / 4) (t := 3) (lam := 2)
  (by norm_num) (by norm_num) (by norm_num) (by norm_num) (by norm_num) (by norm_num) (5 : ℝ)
  (by norm_num) (by norm_num)

example := C54_kou_mean_partial (1 / 10) (1 / 5) (x0 := 2) (a := 1 / 2) (b := 1 / 3) (pa := 1 / 4) (t := 3)
  (lam := 2) (by norm_num) (by norm_num) (by norm_num) (by norm_num) (by norm_num) (by norm_num)
  (by norm_num) (by norm_num)

/-- The mean of a process with jumps differs from that of the process without. -/
example : mjdMean 1 0 1 1 1 0 1 = exp (exp 1 - 1) := by
  unfold mjdMean
  norm_num

end Sdepy
