import Verif.Lemmas.JumpSource
import Verif.Props.Rv
import Verif.Props.Chf
import Mathlib.Probability.CDF

/-!
# Variates of preset distributions, as drawn by a compound Poisson source
-/

set_option linter.unusedSectionVars false

open MeasureTheory ProbabilityTheory Set

namespace Sdepy

open Spec

variable {σ Ω : Type} [MeasurableSpace σ] [MeasurableSpace Ω] {μ : Measure σ} [IsProbabilityMeasure μ]

theorem mapM_ok {A B : Type} (f : A → B) (l : List A) :
    l.mapM (fun a => (.ok (f a) : Py B)) = .ok (l.map f) := by
  induction l with
  | nil => rfl
  | cons a l ih => rw [List.mapM_cons, ih]; rfl

/-- Variates are drawn independently. -/
theorem rvsOf_law {rv : RV Ω} {X : Ω → ℝ} (hX : Measurable X) (hrv : ∀ z, rv.rvs z = .ok (X z))
    {law : Measure Ω} [IsProbabilityMeasure law] {sample : ℕ → ℕ → σ → (ℕ → ℕ → Ω) × σ}
    (hs : ∀ n j, DrawsLaw μ (Measure.pi fun _ : Fin n => Measure.pi fun _ : Fin j => law)
      fun s => .ok (fun a b => (sample n j s).1 a b, (sample n j s).2)) :
    VariatesLaw μ (law.map X) (rvsOf rv sample) := by
  intro n j
  have h := (hs n j).map (φ := fun x a b => X (x a b)) (by fun_prop)
  have : IsProbabilityMeasure (law.map X) := Measure.isProbabilityMeasure_map hX.aemeasurable
  have e1 := Measure.pi_map_pi (μ := fun _ : Fin j => law) (f := fun _ => X) (fun _ => hX.aemeasurable)
  have e2 := Measure.pi_map_pi (μ := fun _ : Fin n => Measure.pi fun _ : Fin j => law)
    (f := fun _ x b => X (x b)) (fun _ => Measurable.aemeasurable (by fun_prop))
  rw [e1] at e2
  rw [e2] at h
  convert h using 1
  funext s
  simp only [rvsOf, hrv, mapM_ok, Except.map, Except.ok.injEq, Prod.mk.injEq, and_true]
  funext a b
  simp [List.getD_eq_getElem?_getD]

theorem stdNormal_affine (a b : ℝ) :
    stdNormal.map (fun z => a + b * z) = gaussianReal a (b ^ 2).toNNReal := by
  have e : (fun z : ℝ => a + b * z) = (fun z => a + z) ∘ fun z => b * z := rfl
  rw [e, ← Measure.map_map (by fun_prop) (by fun_prop), stdNormal, gaussianReal_map_const_mul,
    gaussianReal_map_const_add]
  congr 1
  · simp
  · ext
    simp [sq_nonneg]

theorem stdExpon_scale {a : ℝ} (ha : 0 < a) : stdExpon.map (fun z => a * z) = expMeasure (1 / a) := by
  have i1 := isProbabilityMeasure_expMeasure (r := 1 / a) (by positivity)
  have i2 : IsProbabilityMeasure (stdExpon.map fun z => a * z) :=
    Measure.isProbabilityMeasure_map (by fun_prop)
  refine Measure.eq_of_cdf _ _ ?_
  ext x
  have h1 := cdf_expMeasure_eq (r := 1 / a) (by positivity) x
  have h2 := cdf_expMeasure_eq (r := 1) one_pos (x / a)
  have h3 : cdf (stdExpon.map fun z => a * z) x = cdf (expMeasure 1) (x / a) := by
    rw [cdf_eq_real, cdf_eq_real, Measure.real, Measure.map_apply (by fun_prop) measurableSet_Iic]
    have : (fun z => a * z) ⁻¹' Iic x = Iic (x / a) := by
      ext z
      simp only [mem_preimage, mem_Iic]
      rw [le_div_iff₀' ha]
    rw [this]
    rfl
  rw [h3, h2, h1]
  have : 0 ≤ x / a ↔ 0 ≤ x := by
    constructor
    · intro h
      have := mul_nonneg h ha.le
      rwa [div_mul_cancel₀ _ ha.ne'] at this
    · intro h; positivity
  simp only [this]
  split_ifs
  · congr 2; ring
  · rfl

theorem measurable_double (a b pa : ℝ) :
    Measurable fun z : ℝ × ℝ × ℝ => if z.2.2 ≤ pa then a * z.1 else -(b * z.2.1) :=
  Measurable.ite (measurableSet_le (by fun_prop) (by fun_prop)) (by fun_prop) (by fun_prop)

theorem doubleExp_law {a b pa : ℝ} (ha : 0 < a) (hb : 0 < b) (h0 : 0 ≤ pa) (h1 : pa ≤ 1) :
    doubleExpDraws.map (fun z => if z.2.2 ≤ pa then a * z.1 else -(b * z.2.1)) = twoSided a b pa := by
  have hX := measurable_double a b pa
  have ip : IsProbabilityMeasure (doubleExpDraws.map fun z =>
    if z.2.2 ≤ pa then a * z.1 else -(b * z.2.1)) := Measure.isProbabilityMeasure_map hX.aemeasurable
  have i1 := isProbabilityMeasure_expMeasure (r := 1 / a) (by positivity)
  have i2 := isProbabilityMeasure_expMeasure (r := 1 / b) (by positivity)
  have i3 : IsProbabilityMeasure ((expMeasure (1 / b)).map fun x => -x) :=
    Measure.isProbabilityMeasure_map (by fun_prop)
  have it := twoSided_prob ha hb h0 h1
  ext S hS
  rw [← ENNReal.toReal_eq_toReal_iff' (measure_ne_top _ _) (measure_ne_top _ _)]
  have hg : Measurable (S.indicator fun _ => (1 : ℝ)) := measurable_const.indicator hS
  have hint : ∀ {f : ℝ → ℝ}, Measurable f → Integrable (fun z => S.indicator (fun _ => (1 : ℝ)) (f z))
      stdExpon := by
    intro f hf
    refine Integrable.of_bound (hg.comp hf).aestronglyMeasurable 1 (.of_forall fun z => ?_)
    simp only [indicator]
    split_ifs <;> simp
  have hval : ∀ {f : ℝ → ℝ}, Measurable f → ∫ z, S.indicator (fun _ => (1 : ℝ)) (f z) ∂stdExpon =
      (stdExpon.map f).real S := by
    intro f hf
    rw [← integral_map (φ := f) hf.aemeasurable hg.aestronglyMeasurable, integral_indicator_const _ hS]
    simp
  have hl : (doubleExpDraws.map fun z => if z.2.2 ≤ pa then a * z.1 else -(b * z.2.1)).real S =
      ∫ z, S.indicator (fun _ => (1 : ℝ)) (if z.2.2 ≤ pa then a * z.1 else -(b * z.2.1))
        ∂doubleExpDraws := by
    rw [← integral_map (φ := fun z : ℝ × ℝ × ℝ => if z.2.2 ≤ pa then a * z.1 else -(b * z.2.1))
      hX.aemeasurable hg.aestronglyMeasurable, integral_indicator_const _ hS]
    simp
  have key := (double_integral (a := a) (b := b) h0 h1 (g := S.indicator fun _ => (1 : ℝ))
    (hint (by fun_prop)) (hint (by fun_prop))).2
  rw [hval (by fun_prop), hval (f := fun z => -(b * z)) (by fun_prop)] at key
  have e : (stdExpon.map fun z => -(b * z)) = (expMeasure (1 / b)).map fun x => -x := by
    rw [← stdExpon_scale hb, Measure.map_map (by fun_prop) (by fun_prop)]
    rfl
  rw [stdExpon_scale ha, e] at key
  change (doubleExpDraws.map fun z => if z.2.2 ≤ pa then a * z.1 else -(b * z.2.1)).real S = _
  rw [hl, key]
  unfold twoSided
  simp only [Measure.coe_add, Measure.coe_smul, Pi.add_apply, Pi.smul_apply, smul_eq_mul, Measure.real]
  rw [ENNReal.toReal_add (by finiteness) (by finiteness), ENNReal.toReal_mul, ENNReal.toReal_mul,
    ENNReal.toReal_ofReal h0, ENNReal.toReal_ofReal (by linarith)]

end Sdepy
