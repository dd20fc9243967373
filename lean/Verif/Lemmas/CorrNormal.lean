import Verif.Spec.HestonLaw
import Mathlib.Probability.Distributions.Gaussian.Real
import Mathlib.Probability.Distributions.Gaussian.CharFun
import Mathlib.Probability.Independence.CharacteristicFunction

/-!
# Pairs of normal variates
-/

open MeasureTheory ProbabilityTheory Real
open Complex (I)

namespace Sdepy

open Spec

/-- Complex moment generating function of one normal variate. -/
theorem gauss_cexp (v : NNReal) (z : ℂ) :
    Integrable (fun x : ℝ => Complex.exp (z * x)) (gaussianReal 0 v) ∧
    ∫ x : ℝ, Complex.exp (z * x) ∂gaussianReal 0 v = Complex.exp (v * z ^ 2 / 2) := by
  constructor
  · refine (integrable_norm_iff (by fun_prop)).1 ?_
    refine (integrable_exp_mul_gaussianReal (μ := 0) (v := v) z.re).congr
      (Filter.Eventually.of_forall fun x => ?_)
    simp [Complex.norm_exp]
  · have := complexMGF_id_gaussianReal (μ := 0) (v := v) z
    simpa [complexMGF] using this

theorem corrNormal_isProb {rho v : ℝ} {N : Measure (ℝ × ℝ)} (h : CorrNormal rho v N) :
    IsProbabilityMeasure N := by
  rw [h]; exact Measure.isProbabilityMeasure_map (by fun_prop)

/-- Complex moment generating function of a pair. -/
theorem corrNormal_cexp {rho v : ℝ} (hr : |rho| ≤ 1) (hv : 0 ≤ v) {N : Measure (ℝ × ℝ)}
    (h : CorrNormal rho v N) (p q : ℂ) :
    Integrable (fun z : ℝ × ℝ => Complex.exp (p * z.1 + q * z.2)) N ∧
    ∫ z, Complex.exp (p * z.1 + q * z.2) ∂N =
      Complex.exp (v * (p ^ 2 + 2 * rho * p * q + q ^ 2) / 2) := by
  set r := √(1 - rho ^ 2) with hrd
  have hr2 : (r : ℂ) ^ 2 = 1 - (rho : ℂ) ^ 2 := by
    have : r ^ 2 = 1 - rho ^ 2 := sq_sqrt (by have := (sq_le_one_iff_abs_le_one rho).2 hr; linarith)
    exact_mod_cast congrArg (fun x : ℝ => (x : ℂ)) this
  have e : ∀ z : ℝ × ℝ, Complex.exp (p * z.1 + q * ((rho * z.1 + r * z.2 : ℝ))) =
      Complex.exp ((p + rho * q) * z.1) * Complex.exp (r * q * z.2) := by
    intro z
    rw [← Complex.exp_add]; congr 1; push_cast; ring
  obtain ⟨i1, e1⟩ := gauss_cexp v.toNNReal (p + rho * q)
  obtain ⟨i2, e2⟩ := gauss_cexp v.toNNReal (r * q)
  rw [h]
  constructor
  · rw [integrable_map_measure (by fun_prop) (by fun_prop)]
    simp only [Function.comp_def, ← hrd, e]
    exact i1.mul_prod i2
  · rw [integral_map (by fun_prop) (by fun_prop)]
    simp only [← hrd, e]
    rw [integral_prod_mul (fun x : ℝ => Complex.exp ((p + rho * q) * x))
      (fun x : ℝ => Complex.exp (r * q * x)), e1, e2, ← Complex.exp_add]
    congr 1
    have : ((v.toNNReal : ℝ) : ℂ) = v := by rw [Real.coe_toNNReal _ hv]
    rw [this, mul_pow, hr2]
    ring

/-- A measure with the same characteristic function. -/
theorem corrNormal_of_charFun {rho v : ℝ} (hr : |rho| ≤ 1) (hv : 0 ≤ v) {N : Measure (ℝ × ℝ)}
    [IsProbabilityMeasure N]
    (h : ∀ a b : ℝ, ∫ z : ℝ × ℝ, Complex.exp ((a * I) * z.1 + (b * I) * z.2) ∂N =
      Complex.exp (v * ((a * I) ^ 2 + 2 * rho * (a * I) * (b * I) + (b * I) ^ 2) / 2)) :
    CorrNormal rho v N := by
  unfold CorrNormal
  set N' := ((gaussianReal 0 v.toNNReal).prod (gaussianReal 0 v.toNNReal)).map
    fun z : ℝ × ℝ => (z.1, rho * z.1 + √(1 - rho ^ 2) * z.2) with hN'
  have : IsProbabilityMeasure N' := Measure.isProbabilityMeasure_map (by fun_prop)
  apply Measure.ext_of_charFunDual
  funext L
  have hL : ∀ z : ℝ × ℝ, L z = L (1, 0) * z.1 + L (0, 1) * z.2 := by
    intro z
    have : z = z.1 • ((1, 0) : ℝ × ℝ) + z.2 • ((0, 1) : ℝ × ℝ) := by ext <;> simp
    conv_lhs => rw [this]
    rw [map_add, map_smul, map_smul, smul_eq_mul, smul_eq_mul]; ring
  have e : ∀ M : Measure (ℝ × ℝ), charFunDual M L =
      ∫ z : ℝ × ℝ, Complex.exp ((L (1, 0) * I) * z.1 + (L (0, 1) * I) * z.2) ∂M := by
    intro M
    rw [charFunDual_apply]
    congr 1
    funext z
    rw [hL z]; congr 1; push_cast; ring
  rw [e, e, h, (corrNormal_cexp hr hv (N := N') rfl _ _).2]

/-- Mean, variance, correlation. -/
theorem corrNormal_noise {rho v : ℝ} (hr : |rho| ≤ 1) (hv : 0 ≤ v) {N : Measure (ℝ × ℝ)}
    (h : CorrNormal rho v N) : CorrNoise rho v N := by
  set g := gaussianReal 0 v.toNNReal with hg
  have hl : MemLp (id : ℝ → ℝ) 2 g := memLp_id_gaussianReal 2
  have hN := corrNormal_isProb h
  have h1 : N.map Prod.fst = g := by
    rw [h, Measure.map_map (by fun_prop) (by fun_prop)]
    have := measurePreserving_fst (μ := g) (ν := g)
    exact this.map_eq
  refine ⟨h1, ?_, ?_⟩
  · have : IsProbabilityMeasure (N.map Prod.snd) := Measure.isProbabilityMeasure_map (by fun_prop)
    apply Measure.ext_of_charFun
    funext t
    rw [charFun_gaussianReal, charFun_apply_real, integral_map (by fun_prop) (by fun_prop)]
    have := (corrNormal_cexp hr hv h 0 (t * I)).2
    simp only [zero_mul, zero_add] at this
    have e : ∀ z : ℝ × ℝ, (t : ℂ) * z.2 * I = t * I * z.2 := fun z => by ring
    simp only [e, this]
    congr 1
    rw [show ((v.toNNReal : ℝ) : ℂ) = v by rw [Real.coe_toNNReal _ hv]]
    push_cast
    linear_combination (v * t ^ 2 / 2 : ℂ) * Complex.I_sq
  · rw [h, integral_map (by fun_prop) (by fun_prop)]
    have hsq : ∫ x, x ^ 2 ∂g = v := by
      have := variance_id_gaussianReal (μ := 0) (v := v.toNNReal)
      rw [variance_eq_sub (memLp_id_gaussianReal 2)] at this
      simp only [id, integral_id_gaussianReal] at this
      simpa [Real.coe_toNNReal _ hv] using this
    have i1 : Integrable (fun z : ℝ × ℝ => rho * z.1 ^ 2) (g.prod g) := by
      have := hl.integrable_sq.comp_fst g
      exact (this.const_mul rho)
    have i2 : Integrable (fun z : ℝ × ℝ => √(1 - rho ^ 2) * (z.1 * z.2)) (g.prod g) :=
      ((hl.integrable one_le_two).mul_prod (hl.integrable one_le_two)).const_mul _
    have e : ∀ z : ℝ × ℝ, z.1 * (rho * z.1 + √(1 - rho ^ 2) * z.2) =
      rho * z.1 ^ 2 + √(1 - rho ^ 2) * (z.1 * z.2) := fun z => by ring
    simp only [e]
    rw [integral_add i1 i2, integral_const_mul, integral_const_mul,
      integral_prod_mul (fun x : ℝ => x) (fun x : ℝ => x), integral_fun_fst (fun x : ℝ => x ^ 2), hsq,
      integral_id_gaussianReal]
    simp

theorem quad_pair {M : ℕ} {C : Matrix (Fin M) (Fin M) ℝ} (hC : C.PosSemidef) (h1 : ∀ k, C k k = 1)
    (i j : Fin M) (a b : ℝ) :
    (a • Pi.single i 1 + b • Pi.single j 1 : Fin M → ℝ) ⬝ᵥ
      C.mulVec (a • Pi.single i 1 + b • Pi.single j 1) = a ^ 2 + 2 * C i j * (a * b) + b ^ 2 := by
  have hs : C j i = C i j := by have := hC.1.apply i j; simpa using this
  simp only [Matrix.mulVec_add, Matrix.mulVec_smul, add_dotProduct, dotProduct_add, smul_dotProduct,
    dotProduct_smul, Matrix.mulVec_single_one, single_one_dotProduct, Matrix.col_apply, h1, hs, smul_eq_mul]
  ring

theorem corr_le_one {M : ℕ} {C : Matrix (Fin M) (Fin M) ℝ} (hC : C.PosSemidef) (h1 : ∀ k, C k k = 1)
    (i j : Fin M) : |C i j| ≤ 1 := by
  have h : ∀ x : Fin M → ℝ, 0 ≤ x ⬝ᵥ C.mulVec x := fun x => by
    have := hC.dotProduct_mulVec_nonneg x
    simpa using this
  have e1 := h (1 • Pi.single i 1 + (1 : ℝ) • Pi.single j 1)
  have e2 := h ((1 : ℝ) • Pi.single i 1 + (-1 : ℝ) • Pi.single j 1)
  have q1 := quad_pair hC h1 i j 1 1
  have q2 := quad_pair hC h1 i j 1 (-1)
  rw [q2] at e2
  have e1' : 0 ≤ (1 : ℝ) ^ 2 + 2 * C i j * (1 * 1) + 1 ^ 2 := by rw [← q1]; simpa using e1
  rw [abs_le]
  constructor <;> linarith

/-- Two components of a multivariate normal variate. -/
theorem mvn_pair {M : ℕ} {C : Matrix (Fin M) (Fin M) ℝ} (hC : C.PosSemidef) (h1 : ∀ k, C k k = 1)
    (i j : Fin M) (h : ℝ) :
    CorrNormal (C i j) |h| ((mvnLaw C).map fun y => (y i * √|h|, y j * √|h|)) := by
  have e1 : (mvnLaw C).map (fun y => (y i * √|h|, y j * √|h|)) =
      (multivariateGaussian 0 C).map (fun y => (y i * √|h|, y j * √|h|)) := by
    unfold mvnLaw
    rw [Measure.map_map (by fun_prop) (by fun_prop)]
    rfl
  rw [e1]
  have : IsProbabilityMeasure ((multivariateGaussian 0 C).map fun y => (y i * √|h|, y j * √|h|)) :=
    Measure.isProbabilityMeasure_map (by fun_prop)
  refine corrNormal_of_charFun (corr_le_one hC h1 i j) (abs_nonneg h) fun a b => ?_
  rw [integral_map (by fun_prop) (by fun_prop)]
  have hx := charFun_multivariateGaussian (μ := 0) hC
    (WithLp.toLp 2 ((a * √|h|) • Pi.single i 1 + (b * √|h|) • Pi.single j 1))
  simp only [inner_zero_right, Complex.ofReal_zero, zero_mul, zero_sub] at hx
  rw [quad_pair hC h1, charFun_apply] at hx
  refine Eq.trans ?_ (hx.trans ?_)
  · congr 1
    funext y
    congr 1
    have : inner ℝ y (WithLp.toLp 2 ((a * √|h|) • Pi.single i 1 + (b * √|h|) • Pi.single j 1)) =
        a * √|h| * y i + b * √|h| * y j := by
      rw [EuclideanSpace.inner_eq_star_dotProduct]
      simp [add_dotProduct]
    rw [this]; push_cast; ring
  · congr 1
    have e : ((√|h| : ℝ) : ℂ) ^ 2 = (|h| : ℝ) := by
      rw [← Complex.ofReal_pow, sq_sqrt (abs_nonneg h)]
    push_cast
    linear_combination (-(a ^ 2 + 2 * C i j * a * b + b ^ 2) / 2 : ℂ) * e -
      ((|h| : ℝ) * (a ^ 2 + 2 * C i j * a * b + b ^ 2) / 2 : ℂ) * Complex.I_sq

end Sdepy
