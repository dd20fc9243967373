import Verif.Lemmas.JumpProcess
import Mathlib.Probability.ConditionalProbability

/-!
# Compound Poisson processes, at all times of an interval
-/

open MeasureTheory ProbabilityTheory

namespace Sdepy

open Spec

section
variable {E : Type} [MeasurableSpace E] {m : ℝ} {ρ : Measure E} [IsProbabilityMeasure ρ]

theorem integrable_exp_sub_one {h : E → ℝ} (hh : Measurable h) :
    Integrable (fun e => Complex.exp (h e * Complex.I) - 1) ρ := by
  refine Integrable.mono' (integrable_const (2 : ℝ)) (Measurable.aestronglyMeasurable (by fun_prop))
    (.of_forall fun e => ?_)
  refine (norm_sub_le _ _).trans ?_
  rw [Complex.norm_exp_ofReal_mul_I, norm_one]
  norm_num

theorem clm_markSum {V : Type} [AddCommGroup V] [Module ℝ V] [TopologicalSpace V] (L : V →L[ℝ] ℝ) (g : E → V)
    (z : ℕ × (ℕ → E)) : L (∑ k ∈ Finset.range z.1, g (z.2 k)) = markSum (fun e => L (g e)) z := by
  rw [map_sum]
  rfl

theorem charFunDual_map {Ω V : Type} [MeasurableSpace Ω] [NormedAddCommGroup V] [NormedSpace ℝ V]
    [MeasurableSpace V] [OpensMeasurableSpace V] {P : Measure Ω} {X : Ω → V} (hX : Measurable X) (L : StrongDual ℝ V) :
    charFunDual (P.map X) L = ∫ ω, Complex.exp (L (X ω) * Complex.I) ∂P := by
  have hL : Measurable fun v => L v := L.continuous.measurable
  rw [charFunDual_apply]
  exact integral_map hX.aemeasurable (Measurable.aestronglyMeasurable (by fun_prop))

/-- Sums over marks, of functions that are not both different from zero on any mark, are independent. -/
theorem marks_indep (hm : 0 ≤ m) {K : Type} [Fintype K] {g : E → K → ℝ} {h : E → ℝ} (hg : Measurable g)
    (hh : Measurable h) (hd : ∀ e, g e = 0 ∨ h e = 0) :
    IndepFun (fun z k => markSum (fun e => g e k) z) (markSum h) (markLaw m ρ) := by
  have hgk : ∀ k, Measurable fun e => g e k := fun k => (measurable_pi_apply k).comp hg
  have hmg : Measurable fun (z : ℕ × (ℕ → E)) k => markSum (fun e => g e k) z :=
    measurable_pi_lambda _ fun k => measurable_markSum (hgk k)
  have hmh := measurable_markSum hh
  have eg : ∀ z : ℕ × (ℕ → E), (fun k => markSum (fun e => g e k) z) = ∑ i ∈ Finset.range z.1, g (z.2 i) := by
    intro z
    funext k
    simp [markSum]
  rw [indepFun_iff_charFunDual_prod hmg.aemeasurable hmh.aemeasurable]
  intro L
  have hL1 : Measurable fun e => L (g e, 0) := L.continuous.measurable.comp (hg.prodMk measurable_const)
  have hL2 : Measurable fun e => L ((0 : K → ℝ), h e) := L.continuous.measurable.comp (measurable_const.prodMk hh)
  have hL3 : Measurable fun e => L (g e, h e) := L.continuous.measurable.comp (hg.prodMk hh)
  rw [charFunDual_map (hmg.prodMk hmh), charFunDual_map hmg, charFunDual_map hmh]
  have e1 : ∀ z : ℕ × (ℕ → E), L ((fun k => markSum (fun e => g e k) z), markSum h z) =
      markSum (fun e => L (g e, h e)) z := by
    intro z
    rw [← clm_markSum L (fun e => (g e, h e)) z, eg, markSum, prod_mk_sum]
  have e2 : ∀ z : ℕ × (ℕ → E), (L.comp (.inl ℝ (K → ℝ) ℝ)) (fun k => markSum (fun e => g e k) z) =
      markSum (fun e => L (g e, 0)) z := by
    intro z
    rw [eg, clm_markSum]
    rfl
  have e3 : ∀ z : ℕ × (ℕ → E), (L.comp (.inr ℝ (K → ℝ) ℝ)) (markSum h z) =
      markSum (fun e => L ((0 : K → ℝ), h e)) z := by
    intro z
    have := clm_markSum (L.comp (.inr ℝ (K → ℝ) ℝ)) h z
    rw [markSum, this]
    rfl
  simp only [e1, e2, e3]
  rw [markSum_chf hm ρ hL1, markSum_chf hm ρ hL2, markSum_chf hm ρ hL3, ← Complex.exp_add, ← mul_add,
    ← integral_add (integrable_exp_sub_one hL1) (integrable_exp_sub_one hL2)]
  congr 3
  funext e
  rcases hd e with h0 | h0
  · rw [h0]
    have : L ((0 : K → ℝ), (0 : ℝ)) = 0 := map_zero L
    rw [this]
    simp
  · rw [h0]
    have : L ((0 : K → ℝ), (0 : ℝ)) = 0 := map_zero L
    rw [this]
    simp

end

/-! ### The process -/

/-- Times uniform in an interval, together with jump sizes. -/
noncomputable def jumpMarks (t0 T : ℝ) (ν : Measure ℝ) : Measure (ℝ × ℝ) :=
  (cond volume (Set.Ioc t0 (t0 + T))).prod ν

/-- The sizes of jumps that occur after `s`, up to `t`. -/
noncomputable def jumpIn (s t : ℝ) (e : ℝ × ℝ) : ℝ := if s < e.1 ∧ e.1 ≤ t then e.2 else 0

theorem measurable_jumpIn (s t : ℝ) : Measurable (jumpIn s t) := by
  unfold jumpIn
  refine Measurable.ite ?_ measurable_snd measurable_const
  exact (measurableSet_lt measurable_const measurable_fst).inter (measurableSet_le measurable_fst measurable_const)

theorem jumpIn_sub {t0 s t : ℝ} (h0 : t0 ≤ s) (hst : s ≤ t) (e : ℝ × ℝ) :
    jumpIn t0 t e - jumpIn t0 s e = jumpIn s t e := by
  unfold jumpIn
  by_cases h1 : t0 < e.1 ∧ e.1 ≤ t
  · by_cases h2 : e.1 ≤ s
    · rw [if_pos h1, if_pos ⟨h1.1, h2⟩, if_neg (fun h => absurd h.1 (not_lt.2 h2)), sub_self]
    · rw [if_pos h1, if_neg (fun h => h2 h.2), if_pos ⟨not_le.1 h2, h1.2⟩, sub_zero]
  · rw [if_neg h1, if_neg (fun h => h1 ⟨h.1, h.2.trans hst⟩), if_neg (fun h => h1 ⟨h0.trans_lt h.1, h.2⟩), sub_zero]

theorem markSum_sub {E : Type} (g h : E → ℝ) (z : ℕ × (ℕ → E)) :
    markSum g z - markSum h z = markSum (fun e => g e - h e) z := by
  unfold markSum
  rw [Finset.sum_sub_distrib]

section
variable {t0 T : ℝ} {ν : Measure ℝ} [IsProbabilityMeasure ν]

theorem jumpMarks_prob (hT : 0 < T) : IsProbabilityMeasure (jumpMarks t0 T ν) := by
  have : IsProbabilityMeasure (cond (volume : Measure ℝ) (Set.Ioc t0 (t0 + T))) := by
    refine cond_isProbabilityMeasure_of_finite ?_ ?_
    · rw [Real.volume_Ioc]; simp [hT]
    · rw [Real.volume_Ioc]; exact ENNReal.ofReal_ne_top
  unfold jumpMarks
  infer_instance

/-- The law of the sum of jumps, over a part of the interval. -/
theorem jumps_law (hT : 0 < T) {l s t : ℝ} (hl : 0 ≤ l) (h0 : t0 ≤ s) (hst : s ≤ t) (h1 : t ≤ t0 + T) :
    (markLaw (l * T) (jumpMarks t0 T ν)).map (markSum (jumpIn s t)) = compoundPoisson (l * (t - s)) ν := by
  haveI := jumpMarks_prob (t0 := t0) (ν := ν) hT
  have hmt := measurable_jumpIn s t
  rw [markSum_law _ _ hmt]
  haveI := Measure.isProbabilityMeasure_map (μ := jumpMarks t0 T ν) hmt.aemeasurable
  haveI : IsProbabilityMeasure (compoundPoisson (l * T) ((jumpMarks t0 T ν).map (jumpIn s t))) := by
    rw [← markSum_law _ _ hmt]
    exact Measure.isProbabilityMeasure_map (measurable_markSum hmt).aemeasurable
  haveI : IsProbabilityMeasure (compoundPoisson (l * (t - s)) ν) :=
    Measure.isProbabilityMeasure_map measurable_sumTo.aemeasurable
  refine Measure.ext_of_charFun ?_
  funext u
  rw [compoundPoisson_chf (mul_nonneg hl hT.le), compoundPoisson_chf (mul_nonneg hl (sub_nonneg.2 hst))]
  congr 1
  have hvol : (volume : Measure ℝ) (Set.Ioc t0 (t0 + T)) = ENNReal.ofReal T := by
    rw [Real.volume_Ioc]; congr 1; ring
  have key : ∫ e, (Complex.exp (u * jumpIn s t e * Complex.I) - 1) ∂jumpMarks t0 T ν =
      ((t - s) / T : ℝ) * (charFun ν u - 1) := by
    have hfun : (fun e : ℝ × ℝ => Complex.exp (u * jumpIn s t e * Complex.I) - 1) = fun e =>
        (Set.Ioc s t).indicator (fun _ => (1 : ℂ)) e.1 * (Complex.exp (u * e.2 * Complex.I) - 1) := by
      funext e
      unfold jumpIn
      by_cases h : s < e.1 ∧ e.1 ≤ t
      · rw [if_pos h, Set.indicator_of_mem (show e.1 ∈ Set.Ioc s t from h), one_mul]
      · rw [if_neg h, Set.indicator_of_notMem (show e.1 ∉ Set.Ioc s t from h)]
        simp
    rw [hfun, jumpMarks, integral_prod_mul (fun x : ℝ => (Set.Ioc s t).indicator (fun _ => (1 : ℂ)) x)
      (fun y : ℝ => Complex.exp (u * y * Complex.I) - 1)]
    congr 1
    · rw [integral_indicator_const _ measurableSet_Ioc, measureReal_def, cond_apply measurableSet_Ioc,
        Set.inter_eq_self_of_subset_right (Set.Ioc_subset_Ioc h0 h1), hvol, Real.volume_Ioc, ENNReal.toReal_mul,
        ENNReal.toReal_inv, ENNReal.toReal_ofReal hT.le, ENNReal.toReal_ofReal (sub_nonneg.2 hst)]
      rw [Complex.real_smul, mul_one]
      congr 1
      field_simp
    · rw [charFun_apply_real, integral_sub _ (integrable_const _)]
      · simp
      · refine Integrable.mono' (integrable_const (1 : ℝ)) (Measurable.aestronglyMeasurable (by fun_prop))
          (.of_forall fun e => ?_)
        have := Complex.norm_exp_ofReal_mul_I (u * e)
        push_cast at this
        rw [this]
  have hc : charFun ((jumpMarks t0 T ν).map (jumpIn s t)) u - 1 = ((t - s) / T : ℝ) * (charFun ν u - 1) := by
    rw [← key, charFun_apply_real, integral_map hmt.aemeasurable (Measurable.aestronglyMeasurable (by fun_prop)),
      integral_sub _ (integrable_const _)]
    · simp
    · refine Integrable.mono' (integrable_const (1 : ℝ)) (Measurable.aestronglyMeasurable (by fun_prop))
        (.of_forall fun e => ?_)
      have := Complex.norm_exp_ofReal_mul_I (u * jumpIn s t e)
      push_cast at this
      rw [this]
  rw [hc]
  have hT' : (T : ℂ) ≠ 0 := by exact_mod_cast hT.ne'
  push_cast
  field_simp

end

end Sdepy
