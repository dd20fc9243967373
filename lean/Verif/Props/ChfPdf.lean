import Verif.Lemmas.Inversion
import Verif.Model.ChfPdf
import Verif.Props.Chf

/-!
# Densities computed from characteristic functions (C61)
-/

namespace Sdepy
namespace Spec
end Spec
open Spec Real MeasureTheory ProbabilityTheory Set Filter Topology
open Complex (I)

/-! ### specification -/

/-- `f` is the continuous density of `law`. -/
structure Spec.DensityOf (law : Measure ℝ) (f : ℝ → ℝ) : Prop where
  cont : Continuous f
  nonneg : ∀ x, 0 ≤ f x
  dens : law = volume.withDensity fun x => ENNReal.ofReal (f x)

/-- `φ` is the characteristic function of `law`, and decays so fast as to be integrable. -/
structure Spec.ChfOf (law : Measure ℝ) (φ : ℂ → ℂ) : Prop where
  chf : ∀ u : ℝ, φ u = ∫ x : ℝ, Complex.exp (I * u * x) ∂law
  integrable : Integrable fun u : ℝ => φ u

/-- A function of arrays `t` and `x` gives densities of the law at each time, when `t` is a scalar (then
the result has the shape of `x`) or `x` is (then the result has the shape of `t`). -/
structure Spec.GivesDensities (law : ℝ → Measure ℝ) (dom : ℝ → Prop) (pdf : Arr ℝ → Arr ℝ → Py (Arr ℝ)) :
    Prop where
  scalar_t : ∀ (t : ℝ) (x : Arr ℝ), dom t → ∃ f r, DensityOf (law t) f ∧ pdf (.scalar t) x = .ok r ∧
    r.shape = x.shape ∧ ∀ i, InRange x.shape i → r.get i = f (x.get i)
  scalar_x : ∀ (t : Arr ℝ) (x : ℝ), (∀ i, InRange t.shape i → dom (t.get i)) →
    ∃ r, pdf t (.scalar x) = .ok r ∧ r.shape = t.shape ∧
      ∀ i, InRange t.shape i → ∃ f, DensityOf (law (t.get i)) f ∧ r.get i = f x

/-! ### lemmas -/

theorem densityOf_inversion {law : Measure ℝ} [IsProbabilityMeasure law] {chf : ℝ → ℂ → ℂ} {t : ℝ}
    (h : ChfOf law (chf t)) : DensityOf law fun x => ∫ u : ℝ, chfIntegrand chf u t x := by
  obtain ⟨h1, h2, h3⟩ := chf_inversion h.chf h.integrable
    (f := fun x => ∫ u : ℝ, chfIntegrand chf u t x) fun x => rfl
  exact ⟨h1, h2, h3⟩

/-- Values of a density are determined by the law. -/
theorem densityOf_unique {law : Measure ℝ} {f g : ℝ → ℝ} (hf : DensityOf law f) (hg : DensityOf law g)
    [IsFiniteMeasure law] : f = g := by
  have h := hf.dens.symm.trans hg.dens
  have hfin : ∫⁻ x, ENNReal.ofReal (f x) ≠ ⊤ := by
    have := measure_ne_top law univ
    rw [hf.dens, withDensity_apply _ MeasurableSet.univ, Measure.restrict_univ] at this
    exact this
  have h2 := (withDensity_eq_iff (hf.cont.measurable.ennreal_ofReal.aemeasurable)
    (hg.cont.measurable.ennreal_ofReal.aemeasurable) hfin).1 h
  refine hf.cont.ae_eq_iff_eq volume hg.cont |>.1 ?_
  filter_upwards [h2] with x hx
  exact (ENNReal.ofReal_eq_ofReal_iff (hf.nonneg x) (hg.nonneg x)).1 hx

theorem jumpDraws_prob (t lam : ℝ) (ν : Measure ℝ) [IsProbabilityMeasure ν] :
    IsProbabilityMeasure (jumpDraws t lam ν) := by
  unfold jumpDraws; infer_instance

/-- The characteristic function of the logarithm of a jump-diffusion process is integrable, as long as
there is some diffusion. -/
theorem chfOf_jumpDiff (x0 mu : ℝ) {sigma t lam : ℝ} (hs : sigma ≠ 0) (ht : 0 < t) (hlam : 0 ≤ lam)
    (ν : Measure ℝ) [IsProbabilityMeasure ν] {φ : ℂ → ℂ}
    (hφ : ∀ u : ℝ, ∫ s, Complex.exp (I * u * logJumpDiff x0 mu sigma t s) ∂jumpDraws t lam ν = φ u) :
    ChfOf ((jumpDraws t lam ν).map (logJumpDiff x0 mu sigma t)) φ := by
  have hi : ∀ u : ℝ, Integrable (fun x : ℝ => Complex.exp (I * u * x)) ν := fun u =>
    (integrable_cexp_iff _).2 (by simp)
  refine ⟨fun u => ?_, ?_⟩
  · rw [← hφ, integral_map (measurable_logJumpDiff _ _ _ _).aemeasurable
      (Measurable.aestronglyMeasurable (by fun_prop))]
  · have e : (fun u : ℝ => φ u) = fun u : ℝ => Complex.exp (I * u * (log x0 : ℝ) + t *
        (I * u * (mu - sigma ^ 2 / 2) + sigma ^ 2 * (I * u) ^ 2 / 2 +
        lam * ((∫ x : ℝ, Complex.exp (I * u * x) ∂ν) - 1))) := by
      funext u
      rw [← hφ, integral_logJumpDiff x0 mu sigma ht.le hlam ν _ (hi u)]
    have hm : Measurable fun u : ℝ => ∫ x : ℝ, Complex.exp (I * u * x) ∂ν := by
      have : StronglyMeasurable (Function.uncurry fun u x : ℝ => Complex.exp (I * u * x)) := by
        refine Measurable.stronglyMeasurable ?_
        unfold Function.uncurry
        fun_prop
      exact this.integral_prod_right.measurable
    have hb : Integrable fun u : ℝ => exp (-(t * sigma ^ 2 / 2) * u ^ 2) :=
      integrable_exp_neg_mul_sq (by positivity)
    refine hb.mono' (by rw [e]; exact Measurable.aestronglyMeasurable (by fun_prop))
      (Eventually.of_forall fun u => ?_)
    rw [congrFun e u, Complex.norm_exp, exp_le_exp]
    set m := ∫ x : ℝ, Complex.exp (I * u * x) ∂ν with hmdef
    have hm1 : m.re ≤ 1 := by
      refine (Complex.re_le_norm _).trans ((norm_integral_le_integral_norm _).trans ?_)
      simp [Complex.norm_exp]
    have hre : (I * u * (log x0 : ℝ) + t * (I * u * (mu - sigma ^ 2 / 2) + sigma ^ 2 * (I * u) ^ 2 / 2 +
        lam * (m - 1)) : ℂ).re = -(t * sigma ^ 2 / 2) * u ^ 2 + t * (lam * (m.re - 1)) := by
      have : (I * u * (log x0 : ℝ) + t * (I * u * (mu - sigma ^ 2 / 2) + sigma ^ 2 * (I * u) ^ 2 / 2 +
        lam * (m - 1)) : ℂ) = I * ((u * log x0 + t * (u * (mu - sigma ^ 2 / 2)) : ℝ)) +
          ((-(t * sigma ^ 2 / 2) * u ^ 2 : ℝ) : ℂ) + ((t * lam : ℝ) : ℂ) * (m - 1) := by
        push_cast
        rw [mul_pow, Complex.I_sq]
        ring
      rw [this, Complex.add_re, Complex.add_re, Complex.re_ofReal_mul, Complex.ofReal_re, Complex.re_mul_ofReal,
        Complex.I_re, Complex.sub_re, Complex.one_re]
      ring
    rw [hre]
    have : t * (lam * (m.re - 1)) ≤ 0 :=
      mul_nonpos_of_nonneg_of_nonpos ht.le (mul_nonpos_of_nonneg_of_nonpos hlam (by linarith))
    linarith

/-! ### C61 -/

/-- `_chf_to_pdf` gives the densities of the laws whose characteristic functions it is given, whenever
these are integrable. -/
theorem C61_inversion {law : ℝ → Measure ℝ} {dom : ℝ → Prop} {chf : ℝ → ℂ → ℂ}
    (hp : ∀ t, dom t → IsProbabilityMeasure (law t)) (hc : ∀ t, dom t → ChfOf (law t) (chf t)) :
    GivesDensities law dom fun t x => chfToPdf t x chf := by
  constructor
  · intro t x ht
    have := hp t ht
    refine ⟨_, ⟨x.shape, fun i => ∫ u : ℝ, chfIntegrand chf u t (x.get i)⟩, densityOf_inversion (hc t ht),
      ?_, rfl, fun i _ => rfl⟩
    simp only [chfToPdf]
    rw [if_neg (by simp [Arr.scalar])]
    rfl
  · intro t x ht
    by_cases hs : t.shape = []
    · refine ⟨⟨[], fun _ => ∫ u : ℝ, chfIntegrand chf u (t.get []) x⟩, ?_, hs.symm, ?_⟩
      · simp only [chfToPdf]
        rw [if_neg (by simp [hs])]
        rfl
      intro i hi
      have := hp _ (ht i hi)
      refine ⟨_, densityOf_inversion (hc _ (ht i hi)), ?_⟩
      have hi0 : i = [] := by
        rw [hs] at hi
        exact List.length_eq_zero_iff.1 hi.length
      rw [hi0]
    · refine ⟨⟨t.shape, fun i => ∫ u : ℝ, chfIntegrand chf u (t.get i) x⟩, ?_, rfl, ?_⟩
      · simp only [chfToPdf]
        rw [if_pos hs, if_pos (by simp [Arr.scalar])]
        rfl
      intro i hi
      have := hp _ (ht i hi)
      exact ⟨_, densityOf_inversion (hc _ (ht i hi)), rfl⟩

/-- An array `x` of one value, of any number of dimensions, is taken as that value when `t` is an array. -/
theorem C61_one_value (chf : ℝ → ℂ → ℂ) {t x : Arr ℝ} (ht : t.shape ≠ []) (hx : x.shape.prod = 1)
    {z : List ℕ} (hz : InRange x.shape z) : chfToPdf t x chf = chfToPdf t (.scalar (x.get z)) chf := by
  have key : ∀ (s z : List ℕ), s.prod = 1 → InRange s z → z = s.map fun _ => 0 := by
    intro s z hs hz
    induction hz with
    | nil => rfl
    | cons h _ ih =>
      rw [List.prod_cons] at hs
      have h1 := Nat.eq_one_of_mul_eq_one_right hs
      have h2 := Nat.eq_one_of_mul_eq_one_left hs
      rw [ih h2, List.map_cons]
      congr 1
      omega
  simp only [chfToPdf]
  rw [if_pos ht, if_pos ht, if_pos (.inl hx), if_pos (by simp [Arr.scalar]), key _ _ hx hz]
  rfl

example (chf : ℝ → ℂ → ℂ) := C61_one_value chf (t := ⟨[2], fun i => i.headD 0 + 1⟩) (x := ⟨[1, 1], fun _ => 3⟩)
  (by simp) (by simp) (z := [0, 0]) (.cons (by norm_num) (.cons (by norm_num) .nil))

/-- `mjd_log_pdf` is the density of the logarithm of a jump-diffusion process with normal jumps. -/
theorem C61_mjd (x0 mu a b : ℝ) {sigma lam : ℝ} (hs : sigma ≠ 0) (hlam : 0 ≤ lam) :
    GivesDensities (fun t => (jumpDraws t lam (gaussianReal a (b ^ 2).toNNReal)).map
      (logJumpDiff x0 mu sigma t)) (0 < ·) (mjdLogPdf x0 mu sigma lam a b) := by
  refine C61_inversion (fun t _ => ?_) fun t ht => ?_
  · have := jumpDraws_prob t lam (gaussianReal a (b ^ 2).toNNReal)
    exact Measure.isProbabilityMeasure_map (measurable_logJumpDiff _ _ _ _).aemeasurable
  · exact chfOf_jumpDiff x0 mu hs ht hlam _ fun u => C54_mjd x0 mu sigma a b ht.le hlam u

/-- `kou_log_pdf` is the density of the logarithm of a jump-diffusion process with double exponential
jumps. -/
theorem C61_kou (x0 mu : ℝ) {sigma lam a b pa : ℝ} (hs : sigma ≠ 0) (hlam : 0 ≤ lam) (ha : 0 < a)
    (hb : 0 < b) (h0 : 0 ≤ pa) (h1 : pa ≤ 1) :
    GivesDensities (fun t => (jumpDraws t lam (twoSided a b pa)).map (logJumpDiff x0 mu sigma t)) (0 < ·)
      (kouLogPdf x0 mu sigma lam a b pa) := by
  have := twoSided_prob ha hb h0 h1
  refine C61_inversion (fun t _ => ?_) fun t ht => ?_
  · have := jumpDraws_prob t lam (twoSided a b pa)
    exact Measure.isProbabilityMeasure_map (measurable_logJumpDiff _ _ _ _).aemeasurable
  · exact chfOf_jumpDiff x0 mu hs ht hlam _ fun u =>
      C54_kou x0 mu sigma ht.le hlam ha hb h0 h1 u (by simp) (by simp)

/-- Densities so computed are the only continuous ones, and have integral one. -/
theorem C61_unique {law : Measure ℝ} [IsProbabilityMeasure law] {f g : ℝ → ℝ} (hf : DensityOf law f) :
    ∫ x, f x = 1 ∧ (DensityOf law g → g = f) := by
  refine ⟨?_, fun hg => densityOf_unique hg hf⟩
  have h1 : law univ = 1 := measure_univ
  rw [hf.dens, withDensity_apply _ MeasurableSet.univ, Measure.restrict_univ] at h1
  rw [integral_eq_lintegral_of_nonneg_ae (Eventually.of_forall hf.nonneg)
    hf.cont.aestronglyMeasurable, h1]
  simp

/-- The inversion formula needs an integrable characteristic function: without diffusion, and with a
positive probability of no jumps, there is no density, although a number is returned. -/
theorem C61_no_diffusion (x0 mu a b : ℝ) {t lam : ℝ} (ht : 0 ≤ t) (hlam : 0 ≤ lam) :
    ¬ ∃ f, DensityOf ((jumpDraws t lam (gaussianReal a (b ^ 2).toNNReal)).map (logJumpDiff x0 mu 0 t)) f := by
  rintro ⟨f, hf⟩
  have h0 : ((jumpDraws t lam (gaussianReal a (b ^ 2).toNNReal)).map (logJumpDiff x0 mu 0 t))
      {log x0 + mu * t} = 0 := by
    rw [hf.dens, withDensity_apply _ (measurableSet_singleton _)]
    simp
  rw [Measure.map_apply (measurable_logJumpDiff _ _ _ _) (measurableSet_singleton _)] at h0
  have hsub : (univ : Set ℝ) ×ˢ ({0} ×ˢ (univ : Set (ℕ → ℝ))) ⊆
      logJumpDiff x0 mu 0 t ⁻¹' {log x0 + mu * t} := by
    rintro ⟨w, n, j⟩ ⟨-, hn, -⟩
    simp only [mem_singleton_iff] at hn
    simp [logJumpDiff, hn]
  have h1 := measure_mono_null hsub h0
  unfold jumpDraws at h1
  rw [Measure.prod_prod, Measure.prod_prod, measure_univ, measure_univ, one_mul, mul_one,
    poissonMeasure_singleton] at h1
  simp at h1
  have := exp_pos (-(max (lam * t) 0))
  linarith

example : ∃ f r, DensityOf ((jumpDraws 2 3 (gaussianReal (-1) ((0.5 : ℝ) ^ 2).toNNReal)).map
      (logJumpDiff 1 0.1 0.2 2)) f ∧
    mjdLogPdf 1 0.1 0.2 3 (-1) 0.5 (.scalar 2) ⟨[3], fun i => i.headD 0⟩ = .ok r ∧ r.get [1] = f 1 := by
  obtain ⟨f, r, h1, h2, h3, h4⟩ := (C61_mjd 1 0.1 (-1) 0.5 (sigma := 0.2) (lam := 3) (by norm_num)
    (by norm_num)).scalar_t 2 ⟨[3], fun i => i.headD 0⟩ (by norm_num)
  refine ⟨f, r, h1, h2, ?_⟩
  rw [h4 [1] (by decide)]
  simp

example : ∃ r, kouLogPdf 1 0.1 0.2 3 0.5 0.25 0.5 ⟨[2], fun i => 1 + i.headD 0⟩ (.scalar 0.1) = .ok r ∧
    ∃ f, DensityOf ((jumpDraws (1 + 1) 3 (twoSided 0.5 0.25 0.5)).map (logJumpDiff 1 0.1 0.2 (1 + 1))) f ∧
    r.get [1] = f 0.1 := by
  obtain ⟨r, h1, h2, h3⟩ := (C61_kou 1 0.1 (sigma := 0.2) (lam := 3) (a := 0.5) (b := 0.25) (pa := 0.5)
    (by norm_num) (by norm_num) (by norm_num) (by norm_num) (by norm_num) (by norm_num)).scalar_x
    ⟨[2], fun i => 1 + i.headD 0⟩ 0.1 (fun i _ => by positivity)
  obtain ⟨f, hf, hr⟩ := h3 [1] (by decide)
  simp only [List.headD_cons, Nat.cast_one] at hf
  exact ⟨r, h1, f, hf, hr⟩

/-- The hypotheses of `C61_inversion` hold for the standard normal law. -/
example : ChfOf (gaussianReal 0 1) fun u => Complex.exp (-u ^ 2 / 2) := by
  refine ⟨fun u => ?_, ?_⟩
  · have hg := complexMGF_id_gaussianReal (μ := 0) (v := 1) (I * u)
    simp only [complexMGF, id] at hg
    rw [hg]
    congr 1
    rw [mul_pow, Complex.I_sq]
    simp
  · have h := integrable_cexp_neg_mul_sq (b := 1 / 2) (by norm_num)
    refine h.congr (Eventually.of_forall fun u => ?_)
    simp only
    congr 1
    ring

end Sdepy
