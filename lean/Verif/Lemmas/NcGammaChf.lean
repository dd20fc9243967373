import Verif.Lemmas.NcGamma
import Mathlib.Probability.Moments.ComplexMGF

/-!
# Characteristic function of mixtures of gamma densities
-/

namespace Sdepy

open Real MeasureTheory ProbabilityTheory Set Filter Topology
open Complex (I)

/-- The law with density `p` on the positive half line. -/
noncomputable def posDensity (p : ℝ → ℝ) : Measure ℝ :=
  (volume.restrict (Ioi 0)).withDensity fun x => ENNReal.ofReal (p x)

theorem posDensity_integral {E : Type*} [NormedAddCommGroup E] [NormedSpace ℝ E] {p : ℝ → ℝ}
    (h0 : ∀ x > 0, 0 ≤ p x) (hp : IntegrableOn p (Ioi 0)) (g : ℝ → E) :
    ∫ x, g x ∂posDensity p = ∫ x in Ioi 0, p x • g x := by
  unfold posDensity
  rw [integral_withDensity_eq_integral_toReal_smul₀ hp.aestronglyMeasurable.aemeasurable.ennreal_ofReal
    (.of_forall fun _ => ENNReal.ofReal_lt_top)]
  refine setIntegral_congr_fun measurableSet_Ioi fun x hx => ?_
  rw [ENNReal.toReal_ofReal (h0 x hx)]

theorem posDensity_prob {p : ℝ → ℝ} (h0 : ∀ x > 0, 0 ≤ p x) (hp : IntegrableOn p (Ioi 0))
    (h1 : ∫ x in Ioi 0, p x = 1) : IsProbabilityMeasure (posDensity p) := by
  constructor
  unfold posDensity
  rw [withDensity_apply _ .univ, Measure.restrict_univ, ← ofReal_integral_eq_lintegral_ofReal hp
    ((ae_restrict_iff' measurableSet_Ioi).2 (.of_forall fun x hx => h0 x hx)), h1, ENNReal.ofReal_one]

theorem posDensity_atom (p : ℝ → ℝ) (z : ℝ) : posDensity p {z} = 0 := by
  unfold posDensity
  refine withDensity_absolutelyContinuous _ _ ?_
  exact Measure.absolutelyContinuous_of_le Measure.restrict_le_self (by simp)

/-- Characteristic function, or moment generating function. -/
noncomputable def ncGammaMgf (a c l : ℝ) (z : ℂ) : ℂ :=
  Complex.exp (-(a * Complex.log (1 - z / c))) * Complex.exp (l * z / (c - z))

theorem ncGammaMgf_slit {c : ℝ} (hc : 0 < c) {z : ℂ} (hz : z.re < c) : 1 - z / c ∈ Complex.slitPlane := by
  refine .inl ?_
  rw [Complex.sub_re, Complex.div_ofReal_re, Complex.one_re, sub_pos, div_lt_one hc]
  exact hz

variable {a c l : ℝ} (ha : 0 < a) (hc : 0 < c) (hl : 0 ≤ l)

include ha hc hl in
theorem ncGamma_chf (v : ℝ) :
    charFun (posDensity (ncGamma a c l)) v = ncGammaMgf a c l (v * I) := by
  have h0 : ∀ x > 0, 0 ≤ ncGamma a c l x := fun x hx => ncGamma_nonneg ha hc hl hx
  have hi : IntegrableOn (ncGamma a c l) (Ioi 0) := (ncGamma_integrable ha hc hl).1
  set ν := posDensity (ncGamma a c l) with hν
  have hmgf : ∀ t : ℝ, t < c → mgf id ν t = (c / (c - t)) ^ a * exp (l * t / (c - t)) := by
    intro t ht
    unfold mgf
    rw [hν, posDensity_integral h0 hi]
    have := ncGamma_laplace ha hc hl (s := -t) (by linarith)
    rw [← sub_eq_add_neg] at this
    rw [show l * t / (c - t) = -(l * -t / (c - t)) by ring, ← this]
    refine setIntegral_congr_fun measurableSet_Ioi fun x hx => ?_
    simp [mul_comm]
  have hset : Iio c ⊆ integrableExpSet id ν := by
    intro t ht
    refine Integrable.of_integral_ne_zero ?_
    have := hmgf t ht
    unfold mgf at this
    rw [this]
    have : 0 < c - t := sub_pos.2 ht
    positivity
  have hsub : ∀ z : ℂ, z.re < c → z.re ∈ interior (integrableExpSet id ν) := fun z hz =>
    interior_mono hset (by rw [interior_Iio]; exact hz)
  have hopen : IsOpen {z : ℂ | z.re < c} := isOpen_lt Complex.continuous_re continuous_const
  have hf : AnalyticOnNhd ℂ (complexMGF id ν) {z | z.re < c} := fun z hz => analyticAt_complexMGF (hsub z hz)
  have hg : AnalyticOnNhd ℂ (ncGammaMgf a c l) {z | z.re < c} := by
    refine DifferentiableOn.analyticOnNhd (fun z hz => ?_) hopen
    have hne : (c : ℂ) - z ≠ 0 := by
      intro h
      have := congrArg Complex.re h
      simp at this
      have hz' : z.re < c := hz
      linarith
    have hs := ncGammaMgf_slit hc hz
    unfold ncGammaMgf
    refine DifferentiableAt.differentiableWithinAt ?_
    refine DifferentiableAt.mul ?_ ?_
    · refine DifferentiableAt.cexp (DifferentiableAt.neg (DifferentiableAt.const_mul ?_ _))
      exact DifferentiableAt.clog (by fun_prop) hs
    · exact DifferentiableAt.cexp (DifferentiableAt.div (by fun_prop) (by fun_prop) hne)
  have hconv : IsPreconnected {z : ℂ | z.re < c} := (convex_halfSpace_re_lt c).isPreconnected
  have heq := AnalyticOnNhd.eqOn_of_preconnected_of_frequently_eq hf hg hconv (z₀ := ((0 : ℝ) : ℂ))
    (by simpa using hc) (by
      have h_real : ∃ᶠ x : ℝ in 𝓝[≠] 0, complexMGF id ν x = ncGammaMgf a c l x := by
        refine Eventually.frequently ?_
        filter_upwards [nhdsWithin_le_nhds (Iio_mem_nhds hc)] with t ht
        have ht' : 0 < c - t := sub_pos.2 ht
        rw [complexMGF_ofReal, hmgf t ht]
        unfold ncGammaMgf
        have e : c / (c - t) = (1 - t / c)⁻¹ := by field_simp
        have h1 : 0 < 1 - t / c := by rw [sub_pos, div_lt_one hc]; exact ht
        rw [e, inv_rpow h1.le, rpow_def_of_pos h1, ← exp_neg]
        push_cast
        rw [Complex.ofReal_log h1.le]
        push_cast
        rw [mul_comm (Complex.log _)]
      rw [frequently_iff_seq_forall] at h_real ⊢
      obtain ⟨xs, hx_tendsto, hx_eq⟩ := h_real
      refine ⟨fun n => xs n, ?_, fun n => hx_eq n⟩
      rw [tendsto_nhdsWithin_iff] at hx_tendsto ⊢
      refine ⟨(Complex.continuous_ofReal.tendsto _).comp hx_tendsto.1, ?_⟩
      simpa using hx_tendsto.2)
  rw [← complexMGF_id_mul_I]
  exact heq (by simpa using hc)

end Sdepy
