import Mathlib.Probability.CentralLimitTheorem
import Mathlib.Probability.StrongLaw
import Mathlib.Probability.Distributions.Gaussian.Real
import Mathlib.Analysis.SpecificLimits.Basic

/-!
# Means of independent variables, in units of their standard error
-/

open MeasureTheory ProbabilityTheory Filter Topology

namespace Sdepy

variable {Ω : Type} [MeasurableSpace Ω] {P : Measure Ω} [IsProbabilityMeasure P] {X : ℕ → Ω → ℝ}

/-- The average of the first `n` variables. -/
noncomputable def avgTo (X : ℕ → Ω → ℝ) (n : ℕ) (ω : Ω) : ℝ := (∑ k ∈ Finset.range n, X k ω) / n

/-- The standard error of the average of the first `n` variables. -/
noncomputable def errTo (X : ℕ → Ω → ℝ) (n : ℕ) (ω : Ω) : ℝ :=
  √((∑ k ∈ Finset.range n, X k ω ^ 2) / n - ((∑ k ∈ Finset.range n, X k ω) / n) ^ 2) / √((n : ℝ) - 1)

/-- The standard error, times the square root of the number of variables, converges to their standard deviation. -/
theorem errTo_tendsto (hX : MemLp (X 0) 2 P) (hi : iIndepFun X P) (hd : ∀ i, IdentDistrib (X i) (X 0) P P) :
    ∀ᵐ ω ∂P, Tendsto (fun n : ℕ => √n * errTo X n ω) atTop (𝓝 (√Var[X 0; P])) := by
  have h1 := strong_law_ae_real X (hX.integrable (by norm_num)) (fun i j h => hi.indepFun h) hd
  have h2 := strong_law_ae_real (fun k ω => X k ω ^ 2) hX.integrable_sq
    (fun i j hij => (hi.indepFun hij).comp (measurable_id.pow_const 2) (measurable_id.pow_const 2))
    (fun i => (hd i).comp (measurable_id.pow_const 2))
  have h3 : Tendsto (fun n : ℕ => √((n : ℝ) / ((n : ℝ) - 1))) atTop (𝓝 1) := by
    have h4 := tendsto_natCast_div_add_atTop (𝕜 := ℝ) (-1)
    have := (Real.continuous_sqrt.tendsto 1).comp h4
    rw [Real.sqrt_one] at this
    exact this
  filter_upwards [h1, h2] with ω e1 e2
  have h4 : Tendsto (fun n : ℕ => √((∑ k ∈ Finset.range n, X k ω ^ 2) / n -
      ((∑ k ∈ Finset.range n, X k ω) / n) ^ 2)) atTop (𝓝 (√Var[X 0; P])) := by
    refine (Real.continuous_sqrt.tendsto _).comp ?_
    rw [variance_eq_sub hX]
    exact e2.sub (e1.pow 2)
  have h5 := h3.mul h4
  rw [one_mul] at h5
  refine h5.congr fun n => ?_
  rw [Real.sqrt_div (Nat.cast_nonneg n), errTo]
  ring

/-- The law of a function of the average and of the standard error. -/
theorem studentised {Ω' : Type} [MeasurableSpace Ω'] {P' : Measure Ω'} [IsProbabilityMeasure P'] {Y : Ω' → ℝ}
    (hY : HasLaw Y (gaussianReal 0 Var[X 0; P].toNNReal) P')
    (hX : MemLp (X 0) 2 P) (hi : iIndepFun X P) (hd : ∀ i, IdentDistrib (X i) (X 0) P P)
    {g : ℝ × ℝ → ℝ} (hg : Continuous g) (h0 : P' {ω | g (Y ω, √Var[X 0; P]) = 0} = 0) :
    Tendsto (fun n : ℕ => P.real {ω | g ((√n)⁻¹ * (∑ k ∈ Finset.range n, X k ω - n * ∫ ω, X 0 ω ∂P),
      √n * errTo X n ω) ≤ 0}) atTop (𝓝 (P'.real {ω | g (Y ω, √Var[X 0; P]) ≤ 0})) := by
  have hm : ∀ k, AEMeasurable (X k) P := fun k => (hd k).aemeasurable_fst
  have hs : ∀ n, AEMeasurable (fun ω => ∑ k ∈ Finset.range n, X k ω) P := fun n =>
    Finset.aemeasurable_fun_sum _ fun k _ => hm k
  have hs2 : ∀ n, AEMeasurable (fun ω => ∑ k ∈ Finset.range n, X k ω ^ 2) P := fun n =>
    Finset.aemeasurable_fun_sum _ fun k _ => (hm k).pow_const 2
  have hw : ∀ n : ℕ, AEMeasurable (fun ω => √n * errTo X n ω) P := fun n => by
    unfold errTo
    exact ((((hs2 n).div_const _).sub (((hs n).div_const _).pow_const 2)).sqrt.div_const _).const_mul _
  have h1 := tendstoInDistribution_inv_sqrt_mul_sum_sub hY hX hi hd
  have h2 : TendstoInMeasure P (fun (n : ℕ) ω => √n * errTo X n ω) atTop fun _ => √Var[X 0; P] :=
    tendstoInMeasure_of_tendsto_ae (fun n => (hw n).aestronglyMeasurable) (errTo_tendsto hX hi hd)
  have h3 := h1.continuous_comp_prodMk_of_tendstoInMeasure_const hg h2 hw
  have hgY : AEMeasurable (fun ω => g (Y ω, √Var[X 0; P])) P' := h3.aemeasurable_limit
  have h4 := ProbabilityMeasure.tendsto_measure_of_null_frontier_of_tendsto' h3.tendsto (E := Set.Iic 0) (by
    rw [frontier_Iic]
    show P'.map _ {0} = 0
    rw [Measure.map_apply_of_aemeasurable hgY (measurableSet_singleton 0)]
    exact h0)
  have h5 := (ENNReal.tendsto_toReal (by
    show P'.map _ (Set.Iic 0) ≠ ⊤
    exact measure_ne_top _ _)).comp h4
  refine (h5.congr fun n => ?_).trans (le_of_eq ?_)
  · show (P.map _ (Set.Iic 0)).toReal = _
    rw [Measure.map_apply_of_aemeasurable (h3.forall_aemeasurable n) measurableSet_Iic]
    rfl
  · congr 1
    show (P'.map _ (Set.Iic 0)).toReal = _
    rw [Measure.map_apply_of_aemeasurable hgY measurableSet_Iic]
    rfl

/-- The average falls within a given number of standard errors of the mean with a probability that tends to that of a
standard normal variable. -/
theorem confidence (hX : MemLp (X 0) 2 P) (hv : Var[X 0; P] ≠ 0) (hi : iIndepFun X P)
    (hd : ∀ i, IdentDistrib (X i) (X 0) P P) (z : ℝ) :
    Tendsto (fun n : ℕ => P.real {ω | avgTo X n ω - ∫ ω, X 0 ω ∂P ≤ z * errTo X n ω}) atTop
      (𝓝 ((gaussianReal 0 1).real (Set.Iic z))) ∧
    Tendsto (fun n : ℕ => P.real {ω | |avgTo X n ω - ∫ ω, X 0 ω ∂P| ≤ z * errTo X n ω}) atTop
      (𝓝 ((gaussianReal 0 1).real (Set.Icc (-z) z))) := by
  have hv0 : 0 < Var[X 0; P] := lt_of_le_of_ne (variance_nonneg _ _) (Ne.symm hv)
  have hs0 : 0 < √Var[X 0; P] := Real.sqrt_pos.2 hv0
  -- a normal variable
  have hY : HasLaw (fun y => √Var[X 0; P] * y) (gaussianReal 0 Var[X 0; P].toNNReal) (gaussianReal 0 1) := by
    refine ⟨by fun_prop, ?_⟩
    rw [gaussianReal_map_const_mul]
    congr 1
    · simp
    · ext
      simp [Real.sq_sqrt hv0.le]
  have hnull : ∀ y : ℝ, gaussianReal 0 1 {y} = 0 := fun y => by
    have := noAtoms_gaussianReal (μ := 0) (v := 1) one_ne_zero
    exact measure_singleton y
  have hscale : ∀ (n : ℕ) ω, n ≠ 0 → (√n)⁻¹ * (∑ k ∈ Finset.range n, X k ω - n * ∫ ω, X 0 ω ∂P) =
      √n * (avgTo X n ω - ∫ ω, X 0 ω ∂P) := by
    intro n ω hn
    have h1 : (0 : ℝ) < n := by exact_mod_cast Nat.pos_of_ne_zero hn
    have h2 : 0 < √(n : ℝ) := Real.sqrt_pos.2 h1
    have h3 : √(n : ℝ) * √(n : ℝ) = n := Real.mul_self_sqrt h1.le
    rw [avgTo]
    field_simp
    rw [sq, h3]
  constructor
  · have h := studentised hY hX hi hd (g := fun p => p.1 - z * p.2) (by fun_prop) (by
      rw [show {y : ℝ | √Var[X 0; P] * y - z * √Var[X 0; P] = 0} = {z} from ?_]
      · exact hnull z
      · ext y
        simp only [Set.mem_setOf_eq, Set.mem_singleton_iff]
        constructor
        · intro h
          have : √Var[X 0; P] * (y - z) = 0 := by linarith
          rcases mul_eq_zero.1 this with h | h <;> linarith
        · rintro rfl; ring)
    have he : {y : ℝ | √Var[X 0; P] * y - z * √Var[X 0; P] ≤ 0} = Set.Iic z := by
      ext y
      simp only [Set.mem_setOf_eq, Set.mem_Iic, sub_nonpos]
      rw [mul_comm z, mul_le_mul_iff_right₀ hs0]
    simp only [he] at h
    refine h.congr' ?_
    filter_upwards [eventually_ne_atTop 0] with n hn
    congr 1
    ext ω
    have h2 : 0 < √(n : ℝ) := Real.sqrt_pos.2 (by exact_mod_cast Nat.pos_of_ne_zero hn)
    simp only [Set.mem_setOf_eq, hscale n ω hn, sub_nonpos]
    rw [show z * (√(n : ℝ) * errTo X n ω) = √(n : ℝ) * (z * errTo X n ω) by ring, mul_le_mul_iff_right₀ h2]
  · have h := studentised hY hX hi hd (g := fun p => |p.1| - z * p.2) (by fun_prop) (by
      refine measure_mono_null (t := {z} ∪ {-z}) ?_ (measure_union_null (hnull z) (hnull (-z)))
      intro y hy
      simp only [Set.mem_setOf_eq] at hy
      rw [abs_mul, abs_of_pos hs0] at hy
      have : √Var[X 0; P] * (|y| - z) = 0 := by linarith
      rcases mul_eq_zero.1 this with h | h
      · linarith
      · rcases abs_cases y with ⟨h1, -⟩ | ⟨h1, -⟩
        · left; simp only [Set.mem_singleton_iff]; linarith
        · right; simp only [Set.mem_singleton_iff]; linarith)
    have he : {y : ℝ | |√Var[X 0; P] * y| - z * √Var[X 0; P] ≤ 0} = Set.Icc (-z) z := by
      ext y
      simp only [Set.mem_setOf_eq, Set.mem_Icc, sub_nonpos]
      rw [abs_mul, abs_of_pos hs0, mul_comm z, mul_le_mul_iff_right₀ hs0, abs_le]
    simp only [he] at h
    refine h.congr' ?_
    filter_upwards [eventually_ne_atTop 0] with n hn
    congr 1
    ext ω
    have h2 : 0 < √(n : ℝ) := Real.sqrt_pos.2 (by exact_mod_cast Nat.pos_of_ne_zero hn)
    simp only [Set.mem_setOf_eq, hscale n ω hn, sub_nonpos]
    rw [abs_mul, abs_of_pos h2, show z * (√(n : ℝ) * errTo X n ω) = √(n : ℝ) * (z * errTo X n ω) by ring,
      mul_le_mul_iff_right₀ h2]

/-- The same, as a lower bound, if the variables may be constant. -/
theorem confidence_ge (hX : MemLp (X 0) 2 P) (hi : iIndepFun X P)
    (hd : ∀ i, IdentDistrib (X i) (X 0) P P) (z : ℝ) {ε : ℝ} (hε : 0 < ε) :
    ∀ᶠ n : ℕ in atTop, (gaussianReal 0 1).real (Set.Icc (-z) z) - ε ≤
      P.real {ω | |avgTo X n ω - ∫ ω, X 0 ω ∂P| ≤ z * errTo X n ω} := by
  by_cases hv : Var[X 0; P] = 0
  · have h1 : ∀ k, ∀ᵐ ω ∂P, X k ω = ∫ ω, X 0 ω ∂P := fun k => by
      have h2 := (hd k).symm.memLp_snd hX
      have h3 := ae_eq_integral_of_variance_eq_zero h2 ((hd k).variance_eq.trans hv)
      rw [(hd k).integral_eq] at h3
      exact h3
    filter_upwards [eventually_ne_atTop 0] with n hn
    have hn0 : (n : ℝ) ≠ 0 := by exact_mod_cast hn
    have h2 : ∀ᵐ ω ∂P, ω ∈ {ω | |avgTo X n ω - ∫ ω, X 0 ω ∂P| ≤ z * errTo X n ω} := by
      filter_upwards [ae_all_iff.2 h1] with ω hω
      simp only [Set.mem_setOf_eq, avgTo, errTo, hω, Finset.sum_const, Finset.card_range, nsmul_eq_mul]
      have e1 : ∀ x : ℝ, (n : ℝ) * x / n = x := fun x => by field_simp
      simp [e1]
    have h3 : P.real {ω | |avgTo X n ω - ∫ ω, X 0 ω ∂P| ≤ z * errTo X n ω} = 1 := by
      have h4 : P {ω | |avgTo X n ω - ∫ ω, X 0 ω ∂P| ≤ z * errTo X n ω} = 1 :=
        (measure_congr (eventuallyEq_univ.2 h2)).trans measure_univ
      rw [measureReal_def, h4, ENNReal.toReal_one]
    rw [h3]
    linarith [measureReal_le_one (μ := gaussianReal 0 1) (s := Set.Icc (-z) z)]
  · filter_upwards [(confidence hX hv hi hd z).2.eventually (lt_mem_nhds (sub_lt_self _ hε))] with n hn
    exact hn.le

end Sdepy
