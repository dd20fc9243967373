import Verif.Model.Rv
import Verif.Lemmas.Expon
import Mathlib.Probability.Distributions.Gaussian.Real
import Mathlib.Analysis.SpecialFunctions.Integrals.Basic
import Mathlib.MeasureTheory.Integral.Prod

/-!
# Preset distributions of jumps report the moments of their variates
-/

set_option linter.unusedSectionVars false
set_option linter.unusedSimpArgs false

namespace Sdepy

namespace Spec
end Spec

open Spec Real MeasureTheory Set ProbabilityTheory

/-- If draws have the law `μ`, the distribution yields variates with the moments it reports: mean,
variance, standard deviation, and mean of the exponential, infinite exactly if this does not exist. -/
def Spec.Describes {Ω : Type} [MeasurableSpace Ω] (μ : Measure Ω) (rv : RV Ω) : Prop :=
  ∃ X : Ω → ℝ, (∀ z, rv.rvs z = .ok (X z)) ∧ MemLp X 2 μ ∧ rv.mean = .fin (∫ z, X z ∂μ) ∧
    rv.var = .fin (Var[X; μ]) ∧ rv.std = .fin (√(Var[X; μ])) ∧
    ((Integrable (fun z => exp (X z)) μ ∧ rv.expMean = .fin (∫ z, exp (X z) ∂μ)) ∨
      (¬ Integrable (fun z => exp (X z)) μ ∧ rv.expMean = .inf))

/-- Draws of the standard normal, uniform, exponential distributions, and the independent draws used by
`double_exp_rv`. -/
noncomputable def Spec.stdNormal : Measure ℝ := gaussianReal 0 1
noncomputable def Spec.stdUniform : Measure ℝ := volume.restrict (Icc 0 1)
noncomputable def Spec.stdExpon : Measure ℝ := expMeasure 1
noncomputable def Spec.doubleExpDraws : Measure (ℝ × ℝ × ℝ) := stdExpon.prod (stdExpon.prod stdUniform)

instance : IsProbabilityMeasure stdNormal := by unfold stdNormal; infer_instance
instance : IsProbabilityMeasure stdExpon := by unfold stdExpon; infer_instance
instance : IsProbabilityMeasure stdUniform := ⟨by simp [stdUniform]⟩
instance : IsProbabilityMeasure doubleExpDraws := by unfold doubleExpDraws; infer_instance

/-- Moments of an affine function. -/
theorem frozen_describes {μ : Measure ℝ} [IsProbabilityMeasure μ] {m v loc scale : ℝ} {em : Num}
    (hs : 0 < scale) (h2 : MemLp id 2 μ) (hm : ∫ z, z ∂μ = m) (hv : Var[id; μ] = v)
    (he : Integrable (fun z => exp (loc + scale * z)) μ ∧ em = .fin (∫ z, exp (loc + scale * z) ∂μ)) :
    Describes μ (frozen m v loc scale em) := by
  have hi : Integrable (fun z : ℝ => z) μ := h2.integrable one_le_two
  have hL : MemLp (fun z : ℝ => loc + scale * z) 2 μ :=
    (memLp_const loc).add (h2.const_mul scale)
  have hV : Var[fun z : ℝ => loc + scale * z; μ] = scale ^ 2 * v := by
    rw [variance_const_add (by fun_prop), variance_const_mul]
    rw [← hv]
    rfl
  refine ⟨fun z => loc + scale * z, fun z => ?_, hL, ?_, ?_, ?_, .inl he⟩
  · simp only [frozen, if_neg (not_lt.2 hs.le)]
  · simp only [frozen, if_neg (not_le.2 hs)]
    rw [integral_add (integrable_const _) (hi.const_mul scale), integral_const_mul, hm]
    simp
  · simp only [frozen, if_neg (not_le.2 hs), hV]
  · simp only [frozen, if_neg (not_le.2 hs), hV]

/-- **C33** (normal). -/
theorem C33_norm {a b : ℝ} (hb : 0 < b) : ∃ rv, normRv a b = .ok rv ∧ Describes stdNormal rv := by
  refine ⟨_, rfl, frozen_describes hb ?_ ?_ ?_ ?_⟩
  · exact memLp_id_gaussianReal 2
  · exact integral_id_gaussianReal
  · rw [stdNormal, variance_id_gaussianReal]; simp
  · have h1 := integrable_exp_mul_gaussianReal (μ := 0) (v := 1) b
    have h2 := congrFun (mgf_id_gaussianReal (μ := 0) (v := 1)) b
    simp only [mgf, id] at h2
    have e : ∀ z, exp (a + b * z) = exp a * exp (b * z) := fun z => exp_add _ _
    simp only [e, stdNormal]
    refine ⟨h1.const_mul _, ?_⟩
    rw [integral_const_mul, h2, ← exp_add]
    simp [sq]

theorem integral_stdUniform (f : ℝ → ℝ) : ∫ u, f u ∂stdUniform = ∫ u in (0 : ℝ)..1, f u := by
  rw [stdUniform, integral_Icc_eq_integral_Ioc, intervalIntegral.integral_of_le zero_le_one]

theorem integrable_stdUniform {f : ℝ → ℝ} (h : Continuous f) : Integrable f stdUniform :=
  h.integrableOn_Icc

theorem memLp_stdUniform : MemLp id 2 stdUniform := by
  refine memLp_of_bounded (a := 0) (b := 1) ?_ (by fun_prop) 2
  unfold stdUniform
  exact (ae_restrict_iff' measurableSet_Icc).2 (.of_forall fun x hx => hx)

/-- **C33** (uniform). -/
theorem C33_uniform {a b : ℝ} (hab : a < b) :
    ∃ rv, uniformRv a b = .ok rv ∧ Describes stdUniform rv := by
  have hm : ∫ z, z ∂stdUniform = 1 / 2 := by
    rw [integral_stdUniform, integral_id]; norm_num
  refine ⟨_, rfl, frozen_describes (sub_pos.2 hab) memLp_stdUniform hm ?_ ?_⟩
  · rw [variance_eq_sub memLp_stdUniform]
    have e1 : ∫ u, (id ^ 2 : ℝ → ℝ) u ∂stdUniform = 1 / 3 := by
      rw [integral_stdUniform]
      simp only [Pi.pow_apply, id, integral_pow]
      norm_num
    have e2 : ∫ u, id u ∂stdUniform = 1 / 2 := hm
    rw [e1, e2]; norm_num
  · refine ⟨integrable_stdUniform (by fun_prop), ?_⟩
    have hw : b - a ≠ 0 := (sub_pos.2 hab).ne'
    rw [Num.div, if_neg hw, integral_stdUniform,
      intervalIntegral.integral_comp_add_mul (fun x => exp x) hw a, integral_exp]
    simp only [mul_zero, add_zero, mul_one, add_sub_cancel, smul_eq_mul]
    rw [div_eq_inv_mul]

theorem memLp_stdExpon : MemLp id 2 stdExpon := by
  rw [memLp_two_iff_integrable_sq (by fun_prop)]
  exact integrable_pow_expMeasure 2

theorem memLp_stdExpon_mul (c : ℝ) : MemLp (fun z : ℝ => c * z) 2 stdExpon :=
  memLp_stdExpon.const_mul c

theorem mean_stdExpon (c : ℝ) : ∫ z, c * z ∂stdExpon = c := by
  have := integral_pow_expMeasure 1
  simp only [pow_one, Nat.factorial_one, Nat.cast_one] at this
  rw [integral_const_mul, stdExpon, this, mul_one]

theorem sq_stdExpon (c : ℝ) : ∫ z, (c * z) ^ 2 ∂stdExpon = 2 * c ^ 2 := by
  have := integral_pow_expMeasure 2
  simp only [mul_pow]
  rw [integral_const_mul, stdExpon, this]
  norm_num [Nat.factorial]
  ring

/-- **C33** (exponential). Variates are `a` times exponential variates of unit mean. -/
theorem C33_exp {a : ℝ} (ha : a ≠ 0) : ∃ rv, expRv a = .ok rv ∧ Describes stdExpon rv := by
  refine ⟨_, by rw [expRv, if_neg ha], fun z => a * z, fun z => ?_, memLp_stdExpon_mul a, ?_, ?_, ?_, ?_⟩
  · simp only [Except.ok.injEq]
    rcases lt_or_gt_of_ne ha with h | h
    · rw [if_neg (by linarith), if_pos h, abs_of_neg h]; ring
    · rw [if_pos h, abs_of_pos h]; ring
  · simp only [mean_stdExpon]
    rcases lt_or_gt_of_ne ha with h | h
    · rw [if_neg (by linarith), if_pos h, abs_of_neg h]; ring_nf
    · rw [if_pos h, abs_of_pos h]; ring_nf
  · simp only
    rw [variance_eq_sub (memLp_stdExpon_mul a)]
    have e : ∫ z, ((fun z => a * z) ^ 2 : ℝ → ℝ) z ∂stdExpon = 2 * a ^ 2 := sq_stdExpon a
    rw [e, mean_stdExpon, sq_abs]
    ring_nf
  · simp only
    rw [variance_eq_sub (memLp_stdExpon_mul a)]
    have e : ∫ z, ((fun z => a * z) ^ 2 : ℝ → ℝ) z ∂stdExpon = 2 * a ^ 2 := sq_stdExpon a
    rw [e, mean_stdExpon, sq_abs]
    ring_nf
  · simp only
    by_cases h1 : a < 1
    · rw [if_pos h1]
      obtain ⟨i1, i2⟩ := exp_expMeasure h1
      exact .inl ⟨i1, by rw [stdExpon, i2]⟩
    · rw [if_neg h1]
      exact .inr ⟨not_integrable_exp_expMeasure (not_lt.1 h1), rfl⟩

/-- Indicator of the event that a uniform draw does not exceed `pa`. -/
theorem integral_below {p : ℝ} (h0 : 0 ≤ p) (h1 : p ≤ 1) :
    ∫ u, (Iic p).indicator (fun _ => (1 : ℝ)) u ∂stdUniform = p ∧
    ∫ u, (Ioi p).indicator (fun _ => (1 : ℝ)) u ∂stdUniform = 1 - p := by
  have e1 : stdUniform.real (Iic p) = p := by
    rw [Measure.real, stdUniform, Measure.restrict_apply measurableSet_Iic]
    have : Iic p ∩ Icc 0 1 = Icc 0 p := by
      ext x; simp only [mem_inter_iff, mem_Iic, mem_Icc]; constructor
      · rintro ⟨a, b, c⟩; exact ⟨b, a⟩
      · rintro ⟨a, b⟩; exact ⟨b, a, b.trans h1⟩
    rw [this]
    simp [h0]
  have e2 : stdUniform.real (Ioi p) = 1 - p := by
    rw [← compl_Iic, measureReal_compl measurableSet_Iic, e1]
    simp
  constructor
  · rw [integral_indicator measurableSet_Iic]; simp [e1]
  · rw [integral_indicator measurableSet_Ioi]; simp [e2]

/-- Averages over the draws of `double_exp_rv`. -/
theorem double_integral {a b pa : ℝ} (h0 : 0 ≤ pa) (h1 : pa ≤ 1) {g : ℝ → ℝ}
    (ha : Integrable (fun z => g (a * z)) stdExpon) (hb : Integrable (fun z => g (-(b * z))) stdExpon) :
    Integrable (fun z : ℝ × ℝ × ℝ => g (if z.2.2 ≤ pa then a * z.1 else -(b * z.2.1))) doubleExpDraws ∧
    ∫ z, g (if z.2.2 ≤ pa then a * z.1 else -(b * z.2.1)) ∂doubleExpDraws =
      pa * ∫ z, g (a * z) ∂stdExpon + (1 - pa) * ∫ z, g (-(b * z)) ∂stdExpon := by
  obtain ⟨u1, u2⟩ := integral_below h0 h1
  have i1 : Integrable ((Iic pa).indicator fun _ => (1 : ℝ)) stdUniform :=
    (integrable_const _).indicator measurableSet_Iic
  have i2 : Integrable ((Ioi pa).indicator fun _ => (1 : ℝ)) stdUniform :=
    (integrable_const _).indicator measurableSet_Ioi
  have e : (fun z : ℝ × ℝ × ℝ => g (if z.2.2 ≤ pa then a * z.1 else -(b * z.2.1))) =
      fun z => g (a * z.1) * ((fun _ => (1 : ℝ)) z.2.1 * (Iic pa).indicator (fun _ => (1 : ℝ)) z.2.2) +
        (fun _ => (1 : ℝ)) z.1 * (g (-(b * z.2.1)) * (Ioi pa).indicator (fun _ => (1 : ℝ)) z.2.2) := by
    funext z
    by_cases h : z.2.2 ≤ pa
    · simp [indicator, h, not_lt.2 h]
    · simp [indicator, h, not_le.1 h]
  have j1 : Integrable (fun z : ℝ × ℝ × ℝ => g (a * z.1) *
      ((fun _ => (1 : ℝ)) z.2.1 * (Iic pa).indicator (fun _ => (1 : ℝ)) z.2.2)) doubleExpDraws :=
    Integrable.mul_prod ha (Integrable.mul_prod (integrable_const (1 : ℝ)) i1)
  have j2 : Integrable (fun z : ℝ × ℝ × ℝ => (fun _ => (1 : ℝ)) z.1 *
      (g (-(b * z.2.1)) * (Ioi pa).indicator (fun _ => (1 : ℝ)) z.2.2)) doubleExpDraws :=
    Integrable.mul_prod (integrable_const (1 : ℝ)) (Integrable.mul_prod hb i2)
  rw [e]
  refine ⟨j1.add j2, ?_⟩
  rw [integral_add j1 j2]
  unfold doubleExpDraws
  rw [integral_prod_mul (fun x => g (a * x)) (fun y : ℝ × ℝ => (fun _ => (1 : ℝ)) y.1 *
      (Iic pa).indicator (fun _ => (1 : ℝ)) y.2),
    integral_prod_mul (fun _ => (1 : ℝ)) (fun y => (Iic pa).indicator (fun _ => (1 : ℝ)) y),
    integral_prod_mul (fun _ => (1 : ℝ)) (fun y : ℝ × ℝ => g (-(b * y.1)) *
      (Ioi pa).indicator (fun _ => (1 : ℝ)) y.2),
    integral_prod_mul (fun y => g (-(b * y))) (fun y => (Ioi pa).indicator (fun _ => (1 : ℝ)) y),
    u1, u2]
  simp
  ring

/-- If the mean of the exponential of upward jumps does not exist, and these may happen, that of all
jumps does not exist. -/
theorem double_not_integrable {a b pa : ℝ} (h0 : 0 < pa) (h1 : pa ≤ 1) (ha : 1 ≤ a) :
    ¬ Integrable (fun z : ℝ × ℝ × ℝ => exp (if z.2.2 ≤ pa then a * z.1 else -(b * z.2.1)))
      doubleExpDraws := by
  intro h
  have hs : MeasurableSet {z : ℝ × ℝ × ℝ | z.2.2 ≤ pa} :=
    measurableSet_le (by fun_prop) (by fun_prop)
  have h2 := h.indicator hs
  have e : ({z : ℝ × ℝ × ℝ | z.2.2 ≤ pa}.indicator fun z : ℝ × ℝ × ℝ =>
      exp (if z.2.2 ≤ pa then a * z.1 else -(b * z.2.1))) =
      fun z => exp (a * z.1) * (Iic pa).indicator (fun _ => (1 : ℝ)) z.2.2 := by
    funext z
    by_cases hz : z.2.2 ≤ pa
    · simp [indicator, hz]
    · simp [indicator, hz]
  rw [e] at h2
  have h3 := h2.integral_prod_left
  have e3 : (fun x : ℝ => ∫ y : ℝ × ℝ, exp (a * x) * (Iic pa).indicator (fun _ => (1 : ℝ)) y.2
      ∂(stdExpon.prod stdUniform)) = fun x => pa * exp (a * x) := by
    funext x
    have := integral_prod_mul (μ := stdExpon) (ν := stdUniform) (fun _ => (1 : ℝ))
      (fun y => (Iic pa).indicator (fun _ => (1 : ℝ)) y)
    simp only [one_mul] at this
    rw [integral_const_mul, this, (integral_below h0.le h1).1]
    simp
    ring
  rw [e3] at h3
  refine not_integrable_exp_expMeasure ha ?_
  have := h3.const_mul pa⁻¹
  simpa [inv_mul_cancel_left₀ h0.ne', stdExpon] using this

/-- Moments of a variate that is, with probability `pa`, `a` times, otherwise `-b` times, an exponential
variate of unit mean. -/
theorem double_moments {a b pa : ℝ} (h0 : 0 ≤ pa) (h1 : pa ≤ 1) :
    MemLp (fun z : ℝ × ℝ × ℝ => if z.2.2 ≤ pa then a * z.1 else -(b * z.2.1)) 2 doubleExpDraws ∧
    Var[fun z : ℝ × ℝ × ℝ => if z.2.2 ≤ pa then a * z.1 else -(b * z.2.1); doubleExpDraws] =
      pa * (1 - pa) * (a + b) ^ 2 + (pa * a ^ 2 + (1 - pa) * b ^ 2) ∧
    ∫ z : ℝ × ℝ × ℝ, (if z.2.2 ≤ pa then a * z.1 else -(b * z.2.1)) ∂doubleExpDraws =
      pa * a - (1 - pa) * b := by
  have hX : Measurable fun z : ℝ × ℝ × ℝ => if z.2.2 ≤ pa then a * z.1 else -(b * z.2.1) :=
    Measurable.ite (measurableSet_le (by fun_prop) (by fun_prop)) (by fun_prop) (by fun_prop)
  have neg : ∀ z : ℝ, -(b * z) = -b * z := fun z => by ring
  obtain ⟨m1, m2⟩ := double_integral (a := a) (b := b) (g := fun x => x) h0 h1
    ((memLp_stdExpon_mul a).integrable one_le_two)
    (by simp only [neg]; exact (memLp_stdExpon_mul (-b)).integrable one_le_two)
  obtain ⟨s1, s2⟩ := double_integral (a := a) (b := b) (g := fun x => x ^ 2) h0 h1
    (memLp_stdExpon_mul a).integrable_sq
    (by simp only [neg]; exact (memLp_stdExpon_mul (-b)).integrable_sq)
  simp only [neg, mean_stdExpon] at m2
  simp only [neg, sq_stdExpon] at s2
  have hL : MemLp (fun z : ℝ × ℝ × ℝ => if z.2.2 ≤ pa then a * z.1 else -(b * z.2.1)) 2
      doubleExpDraws := by
    rw [memLp_two_iff_integrable_sq hX.aestronglyMeasurable]
    exact s1
  have hv : Var[fun z : ℝ × ℝ × ℝ => if z.2.2 ≤ pa then a * z.1 else -(b * z.2.1); doubleExpDraws] =
      pa * (1 - pa) * (a + b) ^ 2 + (pa * a ^ 2 + (1 - pa) * b ^ 2) := by
    rw [variance_eq_sub hL]
    have e : ∫ z, ((fun z : ℝ × ℝ × ℝ => if z.2.2 ≤ pa then a * z.1 else -(b * z.2.1)) ^ 2 :
        ℝ × ℝ × ℝ → ℝ) z ∂doubleExpDraws = pa * (2 * a ^ 2) + (1 - pa) * (2 * (-b) ^ 2) := by
      rw [← s2]
      refine integral_congr_ae (.of_forall fun z => ?_)
      simp only [Pi.pow_apply, neg]
    have e' : ∫ z : ℝ × ℝ × ℝ, (if z.2.2 ≤ pa then a * z.1 else -(b * z.2.1)) ∂doubleExpDraws =
        pa * a + (1 - pa) * -b := by
      rw [← m2]
      simp only [neg]
    rw [e, e']
    ring
  have hm : ∫ z : ℝ × ℝ × ℝ, (if z.2.2 ≤ pa then a * z.1 else -(b * z.2.1)) ∂doubleExpDraws =
      pa * a - (1 - pa) * b := by
    have e' : ∫ z : ℝ × ℝ × ℝ, (if z.2.2 ≤ pa then a * z.1 else -(b * z.2.1)) ∂doubleExpDraws =
        pa * a + (1 - pa) * -b := by
      rw [← m2]
      simp only [neg]
    rw [e']; ring
  exact ⟨hL, hv, hm⟩

/-- **C33** (double exponential, partial). With probability `pa` a variate is `a` times, otherwise `-b`
times, an exponential variate of unit mean; the moments reported are right, if not (`pa = 0` and
`1 ≤ a`): see `C33_double_exp_false`. -/
theorem C33_double_exp_partial {a b pa : ℝ} (ha : 0 < a) (hb : 0 < b) (h0 : 0 ≤ pa) (h1 : pa ≤ 1)
    (hne : pa ≠ 0 ∨ a < 1) :
    ∃ rv, doubleExpRv a b pa = .ok rv ∧ Describes doubleExpDraws rv := by
  have neg : ∀ z : ℝ, -(b * z) = -b * z := fun z => by ring
  obtain ⟨hL, hv, hm⟩ := double_moments (a := a) (b := b) h0 h1
  refine ⟨_, by rw [doubleExpRv, if_neg (by
    rintro (h | h | h | h)
    · linarith
    · linarith
    · linarith
    · linarith)], _, fun z => rfl, hL, ?_, ?_, ?_, ?_⟩
  · simp only [hm]
  · simp only [hv]
  · simp only [hv]
  · by_cases ha1 : a < 1
    · obtain ⟨i1, i2⟩ := exp_expMeasure ha1
      obtain ⟨k1, k2⟩ := exp_expMeasure (a := -b) (by linarith)
      obtain ⟨d1, d2⟩ := double_integral (a := a) (b := b) (g := exp) h0 h1 i1
        (by simp only [neg]; exact k1)
      refine .inl ⟨d1, ?_⟩
      simp only [if_pos ha1]
      rw [d2]
      simp only [neg, stdExpon, i2, k2, sub_neg_eq_add]
      rw [mul_one_div, mul_one_div]
    · refine .inr ⟨double_not_integrable (lt_of_le_of_ne h0 ?_) h1 (not_lt.1 ha1), by
        simp only [if_neg ha1]⟩
      rcases hne with h | h
      · exact h.symm
      · exact absurd h ha1

/-- **C33** (rejection). Parameters out of the domain are rejected with `ValueError`: by the constructor,
or if it relies on `scipy.stats` when drawing variates. -/
theorem C33_rejected :
    (∀ a b, b < 0 → ∃ rv, normRv a b = .ok rv ∧ ∀ z, rv.rvs z = .error .valueError) ∧
    (∀ a b, b < a → ∃ rv, uniformRv a b = .ok rv ∧ ∀ z, rv.rvs z = .error .valueError) ∧
    expRv 0 = .error .valueError ∧
    ∀ a b pa, ¬ (0 < a ∧ 0 < b ∧ 0 ≤ pa ∧ pa ≤ 1) → doubleExpRv a b pa = .error .valueError := by
  refine ⟨fun a b h => ⟨_, rfl, fun z => ?_⟩, fun a b h => ⟨_, rfl, fun z => ?_⟩, ?_, ?_⟩
  · simp only [frozen, if_pos h]
  · simp only [frozen, if_pos (sub_neg.2 h)]
  · simp [expRv]
  · intro a b pa h
    rw [doubleExpRv, if_pos]
    by_contra hc
    simp only [not_or, not_le, not_lt] at hc
    exact h ⟨hc.1, hc.2.1, hc.2.2.2, hc.2.2.1⟩

/-- **C33** (time-dependent parameters). If some parameter is a function, the result is a function of time,
its value at `t` being the distribution with the values of parameters at `t`; otherwise it is a
distribution, and errors are raised at once. -/
theorem C33_variable {T R : Type} (rv : List ℝ → Py R) (ps : List (RvParam T)) :
    ((∃ f, .func f ∈ ps) → ∃ d, makeVariable rv ps = .ok (.timed d) ∧
      ∀ t, d t = rv (ps.map fun p => p.value t)) ∧
    ((¬ ∃ f, .func f ∈ ps) → ∀ t : T, makeVariable rv ps = (rv (ps.map fun p => p.value t)).map .plain) := by
  constructor
  · rintro ⟨f, hf⟩
    have : ps.any RvParam.callable = true := List.any_eq_true.2 ⟨_, hf, rfl⟩
    exact ⟨_, by rw [makeVariable, if_pos this], fun t => rfl⟩
  · intro h t
    have hn : ¬ ps.any RvParam.callable = true := by
      intro hc
      obtain ⟨p, hp, hpc⟩ := List.any_eq_true.1 hc
      cases p with
      | const x => cases hpc
      | func f => exact h ⟨f, hp⟩
    have e : ps.map RvParam.number =
        ps.map fun p => p.value t := by
      refine List.map_congr_left fun p hp => ?_
      cases p with
      | const x => rfl
      | func f => exact absurd ⟨f, hp⟩ h
    rw [makeVariable, if_neg hn]
    simp only [e]
    cases rv (ps.map fun p => p.value t) <;> rfl

/-- `double_exp_rv` with `a` varying in time, at a given time. -/
theorem C33_double_exp_variable {f : ℝ → ℝ} {b pa t : ℝ} (ha : 0 < f t) (ha1 : f t < 1) (hb : 0 < b)
    (h0 : 0 ≤ pa) (h1 : pa ≤ 1) :
    ∃ d rv, double_exp_rv (.func f) (.const b) (.const pa) = .ok (.timed d) ∧ d t = .ok rv ∧
      Describes doubleExpDraws rv := by
  obtain ⟨d, hd, hv⟩ := (C33_variable (fun l => doubleExpRv (l.getD 0 0) (l.getD 1 0) (l.getD 2 0))
    [.func f, .const b, .const pa]).1 ⟨f, by simp⟩
  obtain ⟨rv, h2, h3⟩ := C33_double_exp_partial ha hb h0 h1 (.inr ha1)
  exact ⟨d, rv, hd, by rw [hv]; exact h2, h3⟩

/-! ### Examples -/

example := C33_norm (a := -1) (b := 2) (by norm_num)
example := C33_uniform (a := -1) (b := 2) (by norm_num)
example := C33_exp (a := -3) (by norm_num)
example := C33_exp (a := 3) (by norm_num)
example := C33_double_exp_partial (a := 1 / 2) (b := 2) (pa := 1 / 3) (by norm_num) (by norm_num)
  (by norm_num) (by norm_num) (.inr (by norm_num))
example := C33_double_exp_partial (a := 2) (b := 2) (pa := 1 / 3) (by norm_num) (by norm_num)
  (by norm_num) (by norm_num) (.inl (by norm_num))
example := C33_double_exp_variable (f := fun t => t / 2) (b := 1) (pa := 1 / 2) (t := 1) (by norm_num)
  (by norm_num) (by norm_num) (by norm_num) (by norm_num)
example := (C33_variable (T := ℝ) (fun l => normRv (l.getD 0 0) (l.getD 1 0))
  [.const 1, .const 2]).2 (by simp) 0
example : doubleExpRv 1 1 2 = .error .valueError := C33_rejected.2.2.2 1 1 2 (by norm_num)

/-! ### Disagreements -/

/-- **C33 fails** (double exponential). With `pa = 0` variates are `-b` times exponential variates, the
mean of their exponential is `1/(1 + b)`, but infinity is reported if `1 ≤ a`. -/
theorem C33_double_exp_false :
    ∃ a b pa rv, 0 < a ∧ 0 < b ∧ 0 ≤ pa ∧ pa ≤ 1 ∧ doubleExpRv a b pa = .ok rv ∧
      ¬ Describes doubleExpDraws rv := by
  refine ⟨1, 1, 0, _, one_pos, one_pos, le_rfl, zero_le_one, by rw [doubleExpRv, if_neg (by norm_num)], ?_⟩
  rintro ⟨X, hX, -, -, -, -, hE⟩
  have eX : X = fun z : ℝ × ℝ × ℝ => if z.2.2 ≤ 0 then 1 * z.1 else -(1 * z.2.1) := by
    funext z
    exact (Except.ok.inj (hX z)).symm
  subst eX
  rcases hE with ⟨-, h⟩ | ⟨h, -⟩
  · simp at h
  · -- the first branch has probability zero
    apply h
    obtain ⟨k1, -⟩ := exp_expMeasure (a := -1) (by norm_num)
    have h0 : Integrable (fun z : ℝ × ℝ × ℝ =>
        exp (if z.2.2 ≤ 0 then 0 * z.1 else -(1 * z.2.1))) doubleExpDraws :=
      (double_integral (a := 0) (b := 1) (pa := 0) (g := exp) le_rfl zero_le_one (by simp)
        (by simpa [stdExpon] using k1)).1
    refine h0.congr ?_
    have hm : ∀ᵐ z ∂doubleExpDraws, ¬ z.2.2 ≤ 0 := by
      have i0 := (integral_below le_rfl zero_le_one).1
      have hz : stdUniform (Iic 0) = 0 := by
        rw [integral_indicator measurableSet_Iic] at i0
        simpa [Measure.real, ENNReal.toReal_eq_zero_iff] using i0
      have hpre : {z : ℝ × ℝ × ℝ | ¬ ¬ z.2.2 ≤ 0} = univ ×ˢ (univ ×ˢ Iic 0) := by
        ext z; simp
      rw [ae_iff, hpre, doubleExpDraws, Measure.prod_prod, Measure.prod_prod, hz]
      simp
    filter_upwards [hm] with z hz
    simp [hz]

/-- **C33 fails** (uniform). With `a = b` all variates equal `a`, but the mean of their exponential is
reported as not-a-number. -/
theorem C33_uniform_false :
    ∃ a b rv, uniformRv a b = .ok rv ∧ (∀ z, rv.rvs z = .ok a) ∧ rv.expMean = .nan :=
  ⟨1, 1, _, rfl, fun z => by simp [frozen], by simp [frozen, Num.div]⟩

/-- The docstring of `exp_rv` gives the density `a*exp(-a*x)`, for positive `x`: its mean is not the mean
of variates, `a` being used as a scale and not as a rate. -/
theorem C33_exp_docstring_false :
    ∃ a rv, 0 < a ∧ expRv a = .ok rv ∧ rv.mean ≠ .fin (∫ x in Ioi (0 : ℝ), x * (a * exp (-a * x))) := by
  refine ⟨2, _, two_pos, by rw [expRv, if_neg (by norm_num)], ?_⟩
  have h : ∫ x in Ioi (0 : ℝ), x * (2 * exp (-2 * x)) = 1 / 2 := by
    have h1 := integral_rpow_mul_exp_neg_mul_Ioi (a := 2) (r := 2) two_pos two_pos
    have e : ∀ x : ℝ, x * (2 * exp (-2 * x)) = 2 * (x ^ ((2 : ℝ) - 1) * exp (-(2 * x))) := fun x => by
      rw [show (2 : ℝ) - 1 = 1 by norm_num, rpow_one]; ring_nf
    simp only [e]
    rw [integral_const_mul, h1]
    rw [show (2 : ℝ) = ((1 : ℕ) : ℝ) + 1 by norm_num, Gamma_nat_eq_factorial]
    norm_num
  rw [h]
  norm_num

end Sdepy
