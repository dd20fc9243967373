import Verif.Spec.Additive
import Verif.Lemmas.StrongN
import Mathlib.MeasureTheory.Integral.Prod

/-!
# Convergence of order one for equations with additive noise
-/

set_option linter.unusedSectionVars false

open MeasureTheory ProbabilityTheory

namespace Sdepy

open Spec

variable {Ω ι : Type} [MeasurableSpace Ω] [Fintype ι] {P : Measure Ω} [IsProbabilityMeasure P]

/-! ### Mean products -/

/-- Mean of products, summed over cells. -/
noncomputable def meanProd (P : Measure Ω) (X Y : Ω → ι → ℝ) : ℝ := ∑ i, ∫ ω, X ω i * Y ω i ∂P

theorem meanProd_add_left {X X' Y : Ω → ι → ℝ} (hX : ∀ i, MemLp (fun ω => X ω i) 2 P)
    (hX' : ∀ i, MemLp (fun ω => X' ω i) 2 P) (hY : ∀ i, MemLp (fun ω => Y ω i) 2 P) :
    meanProd P (fun ω i => X ω i + X' ω i) Y = meanProd P X Y + meanProd P X' Y := by
  simp only [meanProd, ← Finset.sum_add_distrib]
  refine Finset.sum_congr rfl fun i _ => ?_
  have := integral_add ((hX i).integrable_mul (hY i)) ((hX' i).integrable_mul (hY i))
  simp only [Pi.mul_apply] at this
  rw [← this]
  refine integral_congr_ae (.of_forall fun ω => ?_)
  simp only
  ring

theorem meanProd_comm (X Y : Ω → ι → ℝ) : meanProd P X Y = meanProd P Y X := by
  simp only [meanProd, mul_comm]

theorem meanProd_add_right {X Y Y' : Ω → ι → ℝ} (hX : ∀ i, MemLp (fun ω => X ω i) 2 P)
    (hY : ∀ i, MemLp (fun ω => Y ω i) 2 P) (hY' : ∀ i, MemLp (fun ω => Y' ω i) 2 P) :
    meanProd P X (fun ω i => Y ω i + Y' ω i) = meanProd P X Y + meanProd P X Y' := by
  rw [meanProd_comm, meanProd_add_left hY hY' hX, meanProd_comm Y, meanProd_comm Y']

/-- Twice a product is no larger than a sum of squares, with weights. -/
theorem meanProd_le {X Y : Ω → ι → ℝ} (hX : ∀ i, MemLp (fun ω => X ω i) 2 P)
    (hY : ∀ i, MemLp (fun ω => Y ω i) 2 P) {c : ℝ} (hc : 0 < c) :
    2 * meanProd P X Y ≤ meanSq P X / c + c * meanSq P Y := by
  simp only [meanProd, meanSq, Finset.mul_sum, Finset.sum_div, ← Finset.sum_add_distrib]
  refine Finset.sum_le_sum fun i _ => ?_
  rw [← integral_const_mul, ← integral_const_mul, ← integral_div, ← integral_add ((hX i).integrable_sq.div_const c)
    ((hY i).integrable_sq.const_mul c)]
  refine integral_mono (((hX i).integrable_mul (hY i)).const_mul 2)
    (((hX i).integrable_sq.div_const c).add ((hY i).integrable_sq.const_mul c)) fun ω => ?_
  simp only [Pi.mul_apply, Pi.add_apply]
  have e : X ω i ^ 2 / c + c * Y ω i ^ 2 - 2 * (X ω i * Y ω i) = (X ω i - c * Y ω i) ^ 2 / c := by
    field_simp
    ring
  have := div_nonneg (sq_nonneg (X ω i - c * Y ω i)) hc.le
  linarith

/-- One step, in mean square, with the exact value of products. -/
theorem meanSq_step_eq {U A ζ : Ω → ι → ℝ} {B : ι → ℝ} {h : ℝ}
    (hi : IndepFun (fun ω => (U ω, A ω)) ζ P)
    (hU : ∀ i, MemLp (fun ω => U ω i) 2 P) (hA : ∀ i, MemLp (fun ω => A ω i) 2 P)
    (hζ : ∀ i, MemLp (fun ω => ζ ω i) 2 P)
    (m : ∀ i, ∫ ω, ζ ω i ∂P = 0) (v : ∀ i, ∫ ω, ζ ω i ^ 2 ∂P = h) :
    meanSq P (fun ω i => U ω i + A ω i * h + B i * ζ ω i) =
      meanSq P U + 2 * h * meanProd P U A + h ^ 2 * meanSq P A + h * ∑ i, B i ^ 2 := by
  have hi' : ∀ i, IndepFun (fun ω => (U ω i + A ω i * h, B i)) (fun ω => ζ ω i) P := fun i =>
    hi.comp (φ := fun c : (ι → ℝ) × (ι → ℝ) => (c.1 i + c.2 i * h, B i))
      (ψ := fun z : ι → ℝ => z i) (by fun_prop) (measurable_pi_apply i)
  have hAh : ∀ i, MemLp (fun ω => A ω i * h) 2 P := fun i => by
    simpa [mul_comm] using (hA i).const_mul h
  have key := fun i => sq_step (hi' i) ((hU i).add (hAh i)) (memLp_const (B i)) (hζ i) (m i)
  simp only [meanSq, meanProd, Finset.mul_sum, ← Finset.sum_add_distrib]
  refine Finset.sum_congr rfl fun i _ => ?_
  rw [(key i).2, v i]
  have e : (fun ω => (U ω i + A ω i * h) ^ 2) =
      fun ω => U ω i ^ 2 + 2 * h * (U ω i * A ω i) + h ^ 2 * A ω i ^ 2 := by
    funext ω; ring
  have i1 := (hU i).integrable_sq
  have i2 := ((hU i).integrable_mul (hA i)).const_mul (2 * h)
  have i3 := (hA i).integrable_sq.const_mul (h ^ 2)
  have a1 := integral_add (i1.add i2) i3
  have a2 := integral_add i1 i2
  simp only [Pi.add_apply, Pi.mul_apply] at a1 a2
  rw [e, a1, a2, integral_const_mul, integral_const_mul]
  simp
  ring

/-! ### Drift of values that have moved by noise -/

/-- If `ζ` has mean zero and is independent of `Q` and `X`, the change of the drift due to `ζ` has a small product with
`Q`: terms of the first order have mean zero. -/
theorem cross_bound {f : (ι → ℝ) → ι → ℝ} {Λ S : ℝ} (hf : Measurable f)
    (hlip : ∀ x y, ∑ i, (f x i - f y i) ^ 2 ≤ Λ * ∑ i, (x i - y i) ^ 2)
    (hs : ∀ x, ∃ A : (ι → ℝ) →ₗ[ℝ] (ι → ℝ), ∀ z, ∑ i, (f (x + z) i - f x i - A z i) ^ 2 ≤ Λ * (∑ i, z i ^ 2) ^ 2)
    (hΛ : 0 ≤ Λ) {Q X ζ : Ω → ι → ℝ} (hi : IndepFun (fun ω => (Q ω, X ω)) ζ P)
    (hQ : ∀ i, MemLp (fun ω => Q ω i) 2 P) (hX : AEMeasurable X P) (hζ : ∀ i, MemLp (fun ω => ζ ω i) 2 P)
    (m : ∀ i, ∫ ω, ζ ω i ∂P = 0) (hS : meanSq P ζ ≤ S) :
    2 * meanProd P Q (fun ω i => f (X ω + ζ ω) i - f (X ω) i) ≤ meanSq P Q + Fintype.card ι * (Λ * S ^ 2) := by
  have hQm : AEMeasurable Q P := aemeasurable_pi_lambda _ fun i => (hQ i).aestronglyMeasurable.aemeasurable
  have hζm : AEMeasurable ζ P := aemeasurable_pi_lambda _ fun i => (hζ i).aestronglyMeasurable.aemeasurable
  have hYm : AEMeasurable (fun ω => (Q ω, X ω)) P := hQm.prodMk hX
  have hS0 : 0 ≤ S := (meanSq_nonneg _).trans hS
  set μ := P.map fun ω => (Q ω, X ω) with hμ
  set ν := P.map ζ with hν
  haveI : IsProbabilityMeasure μ := Measure.isProbabilityMeasure_map hYm
  haveI : IsProbabilityMeasure ν := Measure.isProbabilityMeasure_map hζm
  have hprod : P.map (fun ω => ((Q ω, X ω), ζ ω)) = μ.prod ν :=
    (indepFun_iff_map_prod_eq_prod_map_map hYm hζm).1 hi
  have hνl : ∀ i, MemLp (fun z : ι → ℝ => z i) 2 ν := fun i =>
    (memLp_map_measure_iff (measurable_pi_apply i).aestronglyMeasurable hζm).2 (hζ i)
  have hνm : ∀ i, ∫ z, z i ∂ν = 0 := fun i => by
    rw [hν, integral_map hζm (measurable_pi_apply i).aestronglyMeasurable]
    exact m i
  have hνS : ∫ z, ∑ i, z i ^ 2 ∂ν ≤ S := by
    rw [hν, integral_map hζm (Finset.measurable_sum _ fun i _ => by fun_prop).aestronglyMeasurable,
      ← meanSq_eq hζ]
    exact hS
  have hνi : Integrable (fun z : ι → ℝ => ∑ i, z i ^ 2) ν := integrable_sumSq (X := fun z => z) hνl
  have hfi : ∀ i, Measurable fun x => f x i := fun i => (measurable_pi_apply i).comp hf
  have hl1 : ∀ x y i, (f x i - f y i) ^ 2 ≤ Λ * ∑ i, (x i - y i) ^ 2 := fun x y i =>
    (Finset.single_le_sum (f := fun i => (f x i - f y i) ^ 2) (fun _ _ => sq_nonneg _) (Finset.mem_univ i)).trans
      (hlip x y)
  -- the inner mean
  have inner : ∀ x i, |∫ z, (f (x + z) i - f x i) ∂ν| ≤ √Λ * S := by
    intro x i
    obtain ⟨A, hA⟩ := hs x
    have hAm : Measurable fun z => A z i :=
      ((measurable_pi_apply i).comp (LinearMap.continuous_of_finiteDimensional A).measurable)
    obtain ⟨α, hAe⟩ : ∃ α : ι → ℝ, ∀ z, A z i = ∑ k, z k * α k := by
      classical
      refine ⟨fun k => A (Pi.single k 1) i, fun z => ?_⟩
      have : z = ∑ k, z k • (Pi.single k (1 : ℝ) : ι → ℝ) := by
        funext l
        simp [Finset.sum_apply, Pi.single_apply]
      conv_lhs => rw [this]
      rw [map_sum, Finset.sum_apply]
      refine Finset.sum_congr rfl fun k _ => ?_
      rw [map_smul]
      rfl
    have hAi : Integrable (fun z => A z i) ν := by
      simp only [hAe]
      exact integrable_finsetSum _ fun k _ => ((hνl k).integrable one_le_two).mul_const _
    have hA0 : ∫ z, A z i ∂ν = 0 := by
      simp only [hAe]
      rw [integral_finsetSum _ fun k _ => ((hνl k).integrable one_le_two).mul_const _]
      simp [integral_mul_const, hνm]
    have hb : ∀ z, ‖f (x + z) i - f x i - A z i‖ ≤ √Λ * ∑ i, z i ^ 2 := by
      intro z
      have h1 := (Finset.single_le_sum (f := fun i => (f (x + z) i - f x i - A z i) ^ 2) (fun _ _ => sq_nonneg _)
        (Finset.mem_univ i)).trans (hA z)
      rw [Real.norm_eq_abs]
      refine abs_le_of_sq_le_sq ?_ (mul_nonneg (Real.sqrt_nonneg _) (sumSq_nonneg _))
      rw [mul_pow, Real.sq_sqrt hΛ]
      exact h1
    have hri : Integrable (fun z => f (x + z) i - f x i - A z i) ν := by
      refine (hνi.const_mul (√Λ)).mono' ?_ (.of_forall hb)
      have : Measurable fun z : ι → ℝ => f (x + z) i := (hfi i).comp (measurable_const.add measurable_id)
      exact ((this.sub_const _).sub hAm).aestronglyMeasurable
    have e : ∫ z, (f (x + z) i - f x i) ∂ν = ∫ z, (f (x + z) i - f x i - A z i) ∂ν := by
      have := integral_add hri hAi
      simp only [sub_add_cancel] at this
      rw [this, hA0, add_zero]
    rw [e]
    refine (norm_integral_le_integral_norm _).trans ((integral_mono hri.norm (hνi.const_mul _) hb).trans ?_)
    rw [integral_const_mul]
    exact mul_le_mul_of_nonneg_left hνS (Real.sqrt_nonneg _)
  -- products
  have hone : ∀ i, 2 * ∫ ω, Q ω i * (f (X ω + ζ ω) i - f (X ω) i) ∂P ≤ ∫ ω, Q ω i ^ 2 ∂P + Λ * S ^ 2 := by
    intro i
    let F : ((ι → ℝ) × (ι → ℝ)) × (ι → ℝ) → ℝ := fun p => p.1.1 i * (f (p.1.2 + p.2) i - f p.1.2 i)
    have hFm : Measurable F := by
      have := hfi i
      fun_prop
    have hgl : MemLp (fun ω => f (X ω + ζ ω) i - f (X ω) i) 2 P := by
      have hmm : AEStronglyMeasurable (fun ω => f (X ω + ζ ω) i - f (X ω) i) P :=
        (((hfi i).comp_aemeasurable (hX.add hζm)).sub ((hfi i).comp_aemeasurable hX)).aestronglyMeasurable
      refine (memLp_two_iff_integrable_sq hmm).2 (((integrable_sumSq hζ).const_mul Λ).mono' (hmm.pow 2)
        (.of_forall fun ω => ?_))
      rw [Real.norm_of_nonneg (sq_nonneg _)]
      have := hl1 (X ω + ζ ω) (X ω) i
      simpa using this
    have hFi : Integrable (fun ω => F ((Q ω, X ω), ζ ω)) P := (hQ i).integrable_mul hgl
    have hFi' : Integrable F (μ.prod ν) := by
      rw [← hprod]
      exact (integrable_map_measure hFm.aestronglyMeasurable (hYm.prodMk hζm)).2 hFi
    have e1 : ∫ ω, Q ω i * (f (X ω + ζ ω) i - f (X ω) i) ∂P = ∫ p, F p ∂(μ.prod ν) := by
      rw [← hprod, integral_map (hYm.prodMk hζm) hFm.aestronglyMeasurable]
    have e2 : ∫ ω, Q ω i ^ 2 ∂P = ∫ y : (ι → ℝ) × (ι → ℝ), y.1 i ^ 2 ∂μ := by
      rw [hμ, integral_map hYm (by fun_prop)]
    have i2 : Integrable (fun y : (ι → ℝ) × (ι → ℝ) => y.1 i ^ 2) μ := by
      rw [hμ]
      exact (integrable_map_measure (by fun_prop) hYm).2 (hQ i).integrable_sq
    rw [e1, integral_prod _ hFi', e2, ← integral_const_mul]
    have e3 : ∫ y : (ι → ℝ) × (ι → ℝ), y.1 i ^ 2 ∂μ + Λ * S ^ 2 =
        ∫ y : (ι → ℝ) × (ι → ℝ), (y.1 i ^ 2 + Λ * S ^ 2) ∂μ := by
      rw [integral_add i2 (integrable_const _)]
      simp
    rw [e3]
    refine integral_mono (hFi'.integral_prod_left.const_mul 2) (i2.add (integrable_const _)) fun y => ?_
    simp only [F, Pi.add_apply]
    rw [integral_const_mul]
    have h1 := inner y.2 i
    set G := ∫ z, (f (y.2 + z) i - f y.2 i) ∂ν
    have h2 : G ^ 2 ≤ Λ * S ^ 2 := by
      have := sq_le_sq' (by linarith [neg_abs_le G]) ((le_abs_self G).trans h1)
      rwa [mul_pow, Real.sq_sqrt hΛ] at this
    nlinarith [sq_nonneg (y.1 i - G)]
  simp only [meanProd, meanSq, Finset.mul_sum]
  refine (Finset.sum_le_sum fun i _ => hone i).trans ?_
  rw [Finset.sum_add_distrib, Finset.sum_const, Finset.card_univ, nsmul_eq_mul]

/-! ### Schemes along a grid and a finer one -/

section
variable {a : ℝ → (ι → ℝ) → ι → ℝ} {β : ℝ → ι → ℝ} {t0 T Λ : ℝ} {x0 : ι → ℝ}

/-- Additive noise, with one source for each cell. -/
structure AddNoise (a : ℝ → (ι → ℝ) → ι → ℝ) (β : ℝ → ι → ℝ) (t0 T Λ : ℝ) : Prop where
  nonneg : 0 ≤ Λ
  drift : ∀ t ∈ Set.Icc t0 (t0 + T), ∀ u ∈ Set.Icc t0 (t0 + T), ∀ x y,
    ∑ i, (a t x i - a u y i) ^ 2 ≤ Λ * (∑ i, (x i - y i) ^ 2 + (1 + ∑ i, x i ^ 2) * (t - u) ^ 2)
  noise : ∀ t ∈ Set.Icc t0 (t0 + T), ∀ u ∈ Set.Icc t0 (t0 + T), ∑ i, (β t i - β u i) ^ 2 ≤ Λ * (t - u) ^ 2
  smooth : ∀ t ∈ Set.Icc t0 (t0 + T), ∀ x, ∃ A : (ι → ℝ) →ₗ[ℝ] (ι → ℝ), ∀ z,
    ∑ i, (a t (x + z) i - a t x i - A z i) ^ 2 ≤ Λ * (∑ i, z i ^ 2) ^ 2

theorem AddNoise.lipschitz (h : AddNoise a β t0 T Λ) (hT : 0 ≤ T) :
    LipschitzCoef a (fun t _ => β t) t0 T (2 * Λ * (1 + T)) := by
  intro t ht u hu x y
  have h1 := h.drift t ht u hu x y
  have h2 := h.noise t ht u hu
  have hx := sumSq_nonneg x
  have hd := sumSq_nonneg fun i => x i - y i
  have h3 : |t - u| ≤ T := by
    rw [abs_le]
    constructor <;> linarith [ht.1, ht.2, hu.1, hu.2]
  have h4 : (t - u) ^ 2 ≤ (1 + T) * |t - u| := by
    rw [← sq_abs]
    nlinarith [abs_nonneg (t - u)]
  have hn := h.nonneg
  rw [Finset.sum_add_distrib]
  set p := ∑ i, (x i - y i) ^ 2
  set q := ∑ i, x i ^ 2
  have h0 := abs_nonneg (t - u)
  have h5 : Λ * (p + (1 + q) * (t - u) ^ 2) + Λ * (t - u) ^ 2 ≤ Λ * (p + 2 * ((1 + q) * (t - u) ^ 2)) := by
    rw [← mul_add]
    refine mul_le_mul_of_nonneg_left ?_ hn
    nlinarith [mul_nonneg hx (sq_nonneg (t - u))]
  have h6 : p + 2 * ((1 + q) * (t - u) ^ 2) ≤ 2 * (1 + T) * (p + (1 + q) * |t - u|) := by
    have : (1 + q) * (t - u) ^ 2 ≤ (1 + q) * ((1 + T) * |t - u|) := by gcongr
    nlinarith [mul_nonneg hT hd]
  have h7 := mul_le_mul_of_nonneg_left h6 hn
  have e : Λ * (2 * (1 + T) * (p + (1 + q) * |t - u|)) = 2 * Λ * (1 + T) * (p + (1 + q) * |t - u|) := by ring
  linarith

theorem drift_meanSq {t u : ℝ} (h : ∀ x y, ∑ i, (a t x i - a u y i) ^ 2 ≤
      Λ * (∑ i, (x i - y i) ^ 2 + (1 + ∑ i, x i ^ 2) * (t - u) ^ 2)) {X Y : Ω → ι → ℝ}
    (hX : ∀ i, MemLp (fun ω => X ω i) 2 P) (hY : ∀ i, MemLp (fun ω => Y ω i) 2 P)
    (hA : ∀ i, MemLp (fun ω => a t (X ω) i - a u (Y ω) i) 2 P) :
    meanSq P (fun ω i => a t (X ω) i - a u (Y ω) i) ≤
      Λ * (meanSq P (fun ω i => X ω i - Y ω i) + (1 + meanSq P X) * (t - u) ^ 2) := by
  have hXY : ∀ i, MemLp (fun ω => X ω i - Y ω i) 2 P := fun i => (hX i).sub (hY i)
  have i1 : Integrable (fun ω => (1 + ∑ i, X ω i ^ 2) * (t - u) ^ 2) P :=
    ((integrable_const _).add (integrable_sumSq hX)).mul_const _
  have i2 := integrable_sumSq hXY
  rw [meanSq_eq hA, meanSq_eq hXY, meanSq_eq hX]
  have e : Λ * (∫ ω, ∑ i, (X ω i - Y ω i) ^ 2 ∂P + (1 + ∫ ω, ∑ i, X ω i ^ 2 ∂P) * (t - u) ^ 2) =
      ∫ ω, Λ * (∑ i, (X ω i - Y ω i) ^ 2 + (1 + ∑ i, X ω i ^ 2) * (t - u) ^ 2) ∂P := by
    rw [integral_const_mul, integral_add i2 i1, integral_mul_const,
      integral_add (integrable_const _) (integrable_sumSq hX)]
    simp
  rw [e]
  exact integral_mono (integrable_sumSq hA) ((i2.add i1).const_mul Λ) fun ω => h (X ω) (Y ω)

theorem meanSq_add_le {X Y : Ω → ι → ℝ} (hX : ∀ i, MemLp (fun ω => X ω i) 2 P)
    (hY : ∀ i, MemLp (fun ω => Y ω i) 2 P) :
    meanSq P (fun ω i => X ω i + Y ω i) ≤ 2 * (meanSq P X + meanSq P Y) := by
  have := meanSq_two (P := P) (X := X) (Y := fun _ _ => 0) (Z := fun ω i => -Y ω i) hX (fun i => memLp_const 0)
    fun i => (hY i).neg
  simpa using this

theorem meanSq_const_mul (c : ℝ) (X : Ω → ι → ℝ) : meanSq P (fun ω i => c * X ω i) = c ^ 2 * meanSq P X := by
  simp only [meanSq, mul_pow, integral_const_mul, Finset.mul_sum]

theorem meanSq_noise {ζ : Ω → ι → ℝ} {c : ι → ℝ} {h : ℝ} (v : ∀ i, ∫ ω, ζ ω i ^ 2 ∂P = h) :
    meanSq P (fun ω i => c i * ζ ω i) = (∑ i, c i ^ 2) * h := by
  simp only [meanSq, mul_pow, integral_const_mul, v, Finset.sum_mul]

set_option maxHeartbeats 1000000 in
/-- The error made by keeping the drift at its value `a(s, X)` at the start of a step, in mean square, and its product
with the error `e` made so far, given that it was `es` at the start of the step. -/
theorem local_error (h : AddNoise a β t0 T Λ) (hmeas : ∀ t ∈ Set.Icc t0 (t0 + T), Measurable (a t))
    (hal : ∀ t ∈ Set.Icc t0 (t0 + T), ∀ {X : Ω → ι → ℝ}, (∀ i, MemLp (fun ω => X ω i) 2 P) →
      ∀ i, MemLp (fun ω => a t (X ω) i) 2 P)
    {s w δ R G B : ℝ} (hs : s ∈ Set.Icc t0 (t0 + T)) (hw : w ∈ Set.Icc t0 (t0 + T)) (hsw : s ≤ w) (hd : w - s ≤ δ)
    (hδ : 0 < δ) {X Y ζ es : Ω → ι → ℝ} (lX : ∀ i, MemLp (fun ω => X ω i) 2 P)
    (lY : ∀ i, MemLp (fun ω => Y ω i) 2 P) (les : ∀ i, MemLp (fun ω => es ω i) 2 P)
    (lζ : ∀ i, MemLp (fun ω => ζ ω i) 2 P) (hi : IndepFun (fun ω => (es ω, X ω)) ζ P)
    (m : ∀ i, ∫ ω, ζ ω i ∂P = 0) (v : ∀ i, ∫ ω, ζ ω i ^ 2 ∂P = w - s)
    (hR : 1 + meanSq P X ≤ R) (hG : meanSq P (fun ω => a s (X ω)) ≤ G) (hB : ∑ i, β s i ^ 2 ≤ B)
    {e : Ω → ι → ℝ} (he : e = fun ω i => X ω i + a s (X ω) i * (w - s) + β s i * ζ ω i - Y ω i) :
    (∀ i, MemLp (fun ω => a s (X ω) i - a w (Y ω) i) 2 P) ∧
    meanSq P (fun ω i => a s (X ω) i - a w (Y ω) i) ≤
      2 * Λ * (meanSq P e + 2 * (G * δ ^ 2 + B * δ) + R * δ ^ 2) ∧
    2 * meanProd P e (fun ω i => a s (X ω) i - a w (Y ω) i) ≤
      (2 + Λ) * meanSq P e + meanSq P es + meanSq P (fun ω i => e ω i - es ω i) / δ +
        (Λ * B + 2 * Λ * (R + G) + Fintype.card ι * (Λ * B ^ 2)) * δ ^ 2 := by
  have hΛ := h.nonneg
  have hG0 : 0 ≤ G := (meanSq_nonneg _).trans hG
  have hB0 : 0 ≤ B := (sumSq_nonneg _).trans hB
  have hR0 : 0 ≤ R := by linarith [meanSq_nonneg (P := P) X]
  have hq0 : 0 ≤ w - s := by linarith
  have hq2 : (w - s) ^ 2 ≤ δ ^ 2 := by gcongr
  have hq2' : (s - w) ^ 2 ≤ δ ^ 2 := by rw [← neg_sub, neg_sq]; exact hq2
  -- noise
  let η : Ω → ι → ℝ := fun ω i => β s i * ζ ω i
  have lη : ∀ i, MemLp (fun ω => η ω i) 2 P := fun i => (lζ i).const_mul _
  have hηS : meanSq P η ≤ B * δ := by
    have : meanSq P η = (∑ i, β s i ^ 2) * (w - s) := meanSq_noise v
    rw [this]
    gcongr
  let N : Ω → ι → ℝ := fun ω i => X ω i + η ω i
  have lN : ∀ i, MemLp (fun ω => N ω i) 2 P := fun i => (lX i).add (lη i)
  let Z : Ω → ι → ℝ := fun ω i => X ω i + a s (X ω) i * (w - s) + η ω i
  have laX := hal s hs lX
  have lZ : ∀ i, MemLp (fun ω => Z ω i) 2 P := fun i => ((lX i).add ((laX i).mul_const _)).add (lη i)
  have he' : e = fun ω i => Z ω i - Y ω i := he
  have le : ∀ i, MemLp (fun ω => e ω i) 2 P := fun i => by
    rw [he']
    exact (lZ i).sub (lY i)
  have lwX := hal w hw lX
  have lwN := hal w hw lN
  have lwZ := hal w hw lZ
  have lwY := hal w hw lY
  -- pieces
  have lA : ∀ i, MemLp (fun ω => a s (X ω) i - a w (Y ω) i) 2 P := fun i => (laX i).sub (lwY i)
  have lA1 : ∀ i, MemLp (fun ω => a s (X ω) i - a w (Z ω) i) 2 P := fun i => (laX i).sub (lwZ i)
  have lA2 : ∀ i, MemLp (fun ω => a w (Z ω) i - a w (Y ω) i) 2 P := fun i => (lwZ i).sub (lwY i)
  have lA4 : ∀ i, MemLp (fun ω => a s (X ω) i - a w (X ω) i) 2 P := fun i => (laX i).sub (lwX i)
  have lA5 : ∀ i, MemLp (fun ω => a w (N ω) i - a w (Z ω) i) 2 P := fun i => (lwN i).sub (lwZ i)
  have lg : ∀ i, MemLp (fun ω => a w (N ω) i - a w (X ω) i) 2 P := fun i => (lwN i).sub (lwX i)
  have d2 : meanSq P (fun ω i => a w (Z ω) i - a w (Y ω) i) ≤ Λ * meanSq P e := by
    have := drift_meanSq (P := P) (h.drift w hw w hw) lZ lY lA2
    rw [sub_self, zero_pow two_ne_zero, mul_zero, add_zero] at this
    rwa [he']
  have d4 : meanSq P (fun ω i => a s (X ω) i - a w (X ω) i) ≤ Λ * (R * δ ^ 2) := by
    have := drift_meanSq (P := P) (h.drift s hs w hw) lX lX lA4
    refine this.trans (mul_le_mul_of_nonneg_left ?_ hΛ)
    have e0 : meanSq P (fun ω i => X ω i - X ω i) = 0 := by simp [meanSq]
    rw [e0, zero_add]
    gcongr
  have d5 : meanSq P (fun ω i => a w (N ω) i - a w (Z ω) i) ≤ Λ * (G * δ ^ 2) := by
    have := drift_meanSq (P := P) (h.drift w hw w hw) lN lZ lA5
    rw [sub_self, zero_pow two_ne_zero, mul_zero, add_zero] at this
    refine this.trans (mul_le_mul_of_nonneg_left ?_ hΛ)
    have e0 : (fun ω i => N ω i - Z ω i) = fun ω i => (-(w - s)) * a s (X ω) i := by
      funext ω i
      simp only [N, Z]
      ring
    rw [e0, meanSq_const_mul, neg_sq, mul_comm]
    gcongr
  have dg : meanSq P (fun ω i => a w (N ω) i - a w (X ω) i) ≤ Λ * (B * δ) := by
    have := drift_meanSq (P := P) (h.drift w hw w hw) lN lX lg
    rw [sub_self, zero_pow two_ne_zero, mul_zero, add_zero] at this
    refine this.trans (mul_le_mul_of_nonneg_left ?_ hΛ)
    have e0 : (fun ω i => N ω i - X ω i) = η := by
      funext ω i
      simp only [N]
      ring
    rw [e0]
    exact hηS
  refine ⟨lA, ?_, ?_⟩
  · have d1 : meanSq P (fun ω i => a s (X ω) i - a w (Z ω) i) ≤
        Λ * (2 * (G * δ ^ 2 + B * δ) + R * δ ^ 2) := by
      have := drift_meanSq (P := P) (h.drift s hs w hw) lX lZ lA1
      refine this.trans (mul_le_mul_of_nonneg_left ?_ hΛ)
      refine add_le_add ?_ (by gcongr)
      have e0 : (fun ω i => X ω i - Z ω i) = fun ω i => (-(w - s)) * a s (X ω) i + (-1) * η ω i := by
        funext ω i
        simp only [Z]
        ring
      rw [e0]
      refine (meanSq_add_le (fun i => (laX i).const_mul _) fun i => (lη i).const_mul _).trans ?_
      rw [meanSq_const_mul, meanSq_const_mul, neg_sq, neg_sq, one_pow, one_mul]
      have : (w - s) ^ 2 * meanSq P (fun ω => a s (X ω)) ≤ δ ^ 2 * G := by
        gcongr
        exact meanSq_nonneg _
      linarith
    have e0 : (fun ω i => a s (X ω) i - a w (Y ω) i) =
        fun ω i => (a s (X ω) i - a w (Z ω) i) + (a w (Z ω) i - a w (Y ω) i) := by
      funext ω i
      ring
    rw [e0]
    refine (meanSq_add_le lA1 lA2).trans ?_
    linarith
  · have e0 : (fun ω i => a s (X ω) i - a w (Y ω) i) = fun ω i => (a w (Z ω) i - a w (Y ω) i) +
        (((a s (X ω) i - a w (X ω) i) + (a w (N ω) i - a w (Z ω) i)) + (-1) * (a w (N ω) i - a w (X ω) i)) := by
      funext ω i
      ring
    have l45 : ∀ i, MemLp (fun ω => (a s (X ω) i - a w (X ω) i) + (a w (N ω) i - a w (Z ω) i)) 2 P :=
      fun i => (lA4 i).add (lA5 i)
    have lng : ∀ i, MemLp (fun ω => (-1) * (a w (N ω) i - a w (X ω) i)) 2 P := fun i => (lg i).const_mul _
    have lr : ∀ i, MemLp (fun ω => e ω i - es ω i) 2 P := fun i => (le i).sub (les i)
    have l45n : ∀ i, MemLp (fun ω => ((a s (X ω) i - a w (X ω) i) + (a w (N ω) i - a w (Z ω) i)) +
        (-1) * (a w (N ω) i - a w (X ω) i)) 2 P := fun i => (l45 i).add (lng i)
    rw [e0, meanProd_add_right le lA2 l45n, meanProd_add_right le l45 lng]
    have t2 := meanProd_le (P := P) le lA2 one_pos
    have t45 := meanProd_le (P := P) le l45 one_pos
    have d45 := meanSq_add_le (P := P) lA4 lA5
    have tr := meanProd_le (P := P) lr lng hδ
    rw [meanSq_const_mul, neg_sq, one_pow, one_mul] at tr
    have e1 : meanProd P e (fun ω i => (-1) * (a w (N ω) i - a w (X ω) i)) =
        meanProd P (fun ω i => e ω i - es ω i) (fun ω i => (-1) * (a w (N ω) i - a w (X ω) i)) +
        meanProd P (fun ω i => (-1) * es ω i) fun ω i => a w (N ω) i - a w (X ω) i := by
      have e2 : meanProd P (fun ω i => (-1) * es ω i) (fun ω i => a w (N ω) i - a w (X ω) i) =
          meanProd P es fun ω i => (-1) * (a w (N ω) i - a w (X ω) i) := by
        simp only [meanProd]
        refine Finset.sum_congr rfl fun i _ => integral_congr_ae (.of_forall fun ω => ?_)
        simp only
        ring
      rw [e2, ← meanProd_add_left lr les lng]
      congr 1
      funext ω i
      ring
    have hcross := cross_bound (P := P) (f := a w) (Λ := Λ) (S := B * δ) (hmeas w hw) (fun x y => by
        have := h.drift w hw w hw x y
        rwa [sub_self, zero_pow two_ne_zero, mul_zero, add_zero] at this) (h.smooth w hw) hΛ
      (Q := fun ω i => (-1) * es ω i) (X := X) (ζ := η)
      (hi.comp (φ := fun c : (ι → ℝ) × (ι → ℝ) => (fun i => (-1) * c.1 i, c.2)) (ψ := fun (z : ι → ℝ) (i : ι) => β s i * z i)
        (by fun_prop) (by fun_prop))
      (fun i => (les i).const_mul _)
      (aemeasurable_pi_lambda _ fun i => (lX i).aestronglyMeasurable.aemeasurable) lη
      (fun i => by simp only [η, integral_const_mul, m i, mul_zero]) hηS
    rw [meanSq_const_mul, neg_sq, one_pow, one_mul] at hcross
    have hcross' : 2 * meanProd P (fun ω i => (-1) * es ω i) (fun ω i => a w (N ω) i - a w (X ω) i) ≤
        meanSq P es + Fintype.card ι * (Λ * (B * δ) ^ 2) := hcross
    rw [e1]
    have tg := mul_le_mul_of_nonneg_left dg hδ.le
    rw [div_one, one_mul] at t2 t45
    set n : ℝ := (Fintype.card ι : ℝ)
    have e3 : (2 + Λ) * meanSq P e + meanSq P es + meanSq P (fun ω i => e ω i - es ω i) / δ +
        (Λ * B + 2 * Λ * (R + G) + n * (Λ * B ^ 2)) * δ ^ 2 =
        (meanSq P e + Λ * meanSq P e) + (meanSq P e + 2 * (Λ * (R * δ ^ 2) + Λ * (G * δ ^ 2))) +
        (meanSq P (fun ω i => e ω i - es ω i) / δ + δ * (Λ * (B * δ))) +
        (meanSq P es + n * (Λ * (B * δ) ^ 2)) := by ring
    rw [e3]
    linarith

variable {D : Set ℝ} {W X1 X2 : ℝ → Ω → ι → ℝ} {grid1 grid2 : List ℝ}

set_option maxHeartbeats 1000000 in
/-- Mean squares of the difference of two schemes, after one step of the finer grid. -/
theorem nested_step (hT : 0 ≤ T) (h : AddNoise a β t0 T Λ) {C R δ : ℝ} (hC0 : 0 ≤ C)
    (hm : ∀ t ∈ Set.Icc t0 (t0 + T), Measurable (a t) ∧ Measurable fun _ : ι → ℝ => β t)
    (hC : ∀ t ∈ Set.Icc t0 (t0 + T), ∀ x, ∑ i, (a t x i ^ 2 + β t i ^ 2) ≤ C * (1 + ∑ i, x i ^ 2))
    (hR : R = Real.exp ((1 + (1 + T) * C) * T) * (1 + ∑ i, x0 i ^ 2))
    (hW : Drives P t0 D W) (hδ : 0 < δ) (hg1 : grid1.Pairwise (· < ·)) (h01 : t0 ∈ grid1) (hD1 : ∀ u ∈ grid1, u ∈ D)
    (hg2 : grid2.Pairwise (· < ·)) (h02 : t0 ∈ grid2) (hD2 : ∀ u ∈ grid2, u ∈ D) (hsub : ∀ u ∈ grid1, u ∈ grid2)
    (hX1 : IsScheme a (fun t _ => β t) t0 x0 grid1 W X1) (hX2 : IsScheme a (fun t _ => β t) t0 x0 grid2 W X2)
    {e : ℝ → Ω → ι → ℝ} (he : e = fun v ω i => between a (fun t _ => β t) grid1 W X1 v ω i - X2 v ω i)
    {v v' : ℝ} (hst : StepOf grid2 t0 v v') (h0v : t0 ≤ v) (hlt : v < v') (hv' : v' ≤ t0 + T)
    (hd : v - lastAt grid1 v ≤ δ) (hd' : v' - v ≤ δ) :
    meanSq P (fun ω i => e v' ω i - e (lastAt grid1 v) ω i) ≤
      (1 + (v' - v) / δ) * meanSq P (fun ω i => e v ω i - e (lastAt grid1 v) ω i) + (v' - v) *
        (2 * δ * (2 * Λ * (meanSq P (e v) + 2 * (C * R * δ ^ 2 + C * δ) + R * δ ^ 2)) + Λ * δ ^ 2) ∧
    meanSq P (e v') ≤ meanSq P (e v) + (v' - v) * ((2 + Λ) * meanSq P (e v) + meanSq P (e (lastAt grid1 v)) +
        meanSq P (fun ω i => e v ω i - e (lastAt grid1 v) ω i) / δ +
        (Λ * C + 2 * Λ * (R + C * R) + Fintype.card ι * (Λ * C ^ 2)) * δ ^ 2 +
        δ * (2 * Λ * (meanSq P (e v) + 2 * (C * R * δ ^ 2 + C * δ) + R * δ ^ 2)) + Λ * δ ^ 2) := by
  have hΛ := h.nonneg
  have hvT : v ≤ t0 + T := hlt.le.trans hv'
  have hvD := hD2 v hst.1
  have hv'D := hD2 v' hst.2.1
  have hno : ∀ c ∈ grid2, ¬ (v < c ∧ c < v') := by
    rcases hst.2.2 with ⟨-, -, hno⟩ | ⟨-, hc, -⟩
    · exact hno
    · exact absurd hlt (not_lt.2 hc.le)
  obtain ⟨p1, p2, p3, p4⟩ := lastAt_spec hg1 h01 h0v
  have st1 := between_step hX1 hg1 h01 h0v hlt fun c hc => hno c (hsub c hc)
  obtain ⟨kZ, lZ, -⟩ := between_close hT hC0 hm hC hW hg1 h01 hD1 hX1 hvD h0v hvT hd
  have es : e (lastAt grid1 v) = fun ω i => X1 (lastAt grid1 v) ω i - X2 (lastAt grid1 v) ω i := by
    rw [he]
    simp only [between_self hg1 h01 p2 p1]
  have ev : e v = fun ω i => X1 (lastAt grid1 v) ω i + a (lastAt grid1 v) (X1 (lastAt grid1 v) ω) i *
      (v - lastAt grid1 v) + β (lastAt grid1 v) i * (W v ω i - W (lastAt grid1 v) ω i) - X2 v ω i := by
    rw [he]
    rfl
  have ev' : e v' = fun ω i => e v ω i + (a (lastAt grid1 v) (X1 (lastAt grid1 v) ω) i - a v (X2 v ω) i) * (v' - v) +
      (β (lastAt grid1 v) i - β v i) * (W v' ω i - W v ω i) := by
    funext ω i
    simp only [he, st1, hX2.step v v' hst h0v hlt ω i]
    ring
  set s := lastAt grid1 v with hs
  have hsI : s ∈ Set.Icc t0 (t0 + T) := ⟨p2, p3.trans hvT⟩
  have hvI : v ∈ Set.Icc t0 (t0 + T) := ⟨h0v, hvT⟩
  have hsD := hD1 s p1
  obtain ⟨k1, l1, b1⟩ := scheme_moments hT hC0 hm hC hW hg1 h01 hD1 hX1 s p1 p2 hsI.2
  obtain ⟨k2, l2, -⟩ := scheme_moments hT hC0 hm hC hW hg2 h02 hD2 hX2 s (hsub s p1) p2 hsI.2
  obtain ⟨kv, lv, -⟩ := scheme_moments hT hC0 hm hC hW hg2 h02 hD2 hX2 v hst.1 h0v hvT
  have hX1R : 1 + meanSq P (X1 s) ≤ R := by
    refine b1.trans ?_
    have := sumSq_nonneg x0
    rw [hR]
    gcongr
    linarith [hsI.2]
  have hal : ∀ t ∈ Set.Icc t0 (t0 + T), ∀ {X : Ω → ι → ℝ}, (∀ i, MemLp (fun ω => X ω i) 2 P) →
      ∀ i, MemLp (fun ω => a t (X ω) i) 2 P := fun t ht X hX =>
    (coef_memLp (P := P) (b := fun t _ => β t) (hm t ht) (hC t ht) hX).1
  have hGb : meanSq P (fun ω => a s (X1 s ω)) ≤ C * R := by
    have := (coef_memLp (P := P) (b := fun t _ => β t) (hm s hsI) (hC s hsI) l1).2.2
    have n := meanSq_nonneg (P := P) fun ω : Ω => β s
    have : C * (1 + meanSq P (X1 s)) ≤ C * R := by gcongr
    linarith
  have hBb : ∑ i, β s i ^ 2 ≤ C := by
    have h1 := hC s hsI 0
    have h2 : ∑ i, β s i ^ 2 ≤ ∑ i, (a s 0 i ^ 2 + β s i ^ 2) :=
      Finset.sum_le_sum fun i _ => le_add_of_nonneg_left (sq_nonneg _)
    simp at h1
    linarith
  have les : ∀ i, MemLp (fun ω => e s ω i) 2 P := fun i => by
    rw [es]
    exact (l1 i).sub (l2 i)
  have lev : ∀ i, MemLp (fun ω => e v ω i) 2 P := fun i => by
    rw [he]
    exact (lZ i).sub (lv i)
  have ind0 : IndepFun (fun ω => (e s ω, X1 s ω)) (fun ω i => W v ω i - W s ω i) P := by
    rw [es]
    exact ((k1.prodMk k2).comp (f := fun c : (ι → ℝ) × (ι → ℝ) => ((fun i => c.1 i - c.2 i), c.1))
      (by fun_prop)).indep hW hsD hvD p2 p3
  obtain ⟨lA, hA1, hA2⟩ := local_error (P := P) h (fun t ht => (hm t ht).1) hal hsI hvI p3 hd hδ l1 lv les
    (hW.memLp s hsD v hvD p2 p3) ind0 (hW.mean s hsD v hvD p2 p3) (hW.var s hsD v hvD p2 p3) hX1R hGb hBb ev
  set A : Ω → ι → ℝ := fun ω i => a s (X1 s ω) i - a v (X2 v ω) i with hAdef
  have hm1 := (hm s hsI).1
  have hm2 := (hm v hvI).1
  have kev : KnownAt D W v (e v) := by
    rw [he]
    exact (kZ.prodMk kv).comp (f := fun c : (ι → ℝ) × (ι → ℝ) => fun i => c.1 i - c.2 i) (by fun_prop)
  have kes : KnownAt D W v (e s) := by
    rw [es]
    exact ((k1.prodMk k2).comp (f := fun c : (ι → ℝ) × (ι → ℝ) => fun i => c.1 i - c.2 i) (by fun_prop)).mono p3
  have kA : KnownAt D W v A :=
    ((k1.mono p3).prodMk kv).comp (f := fun c : (ι → ℝ) × (ι → ℝ) => fun i => a s c.1 i - a v c.2 i) (by fun_prop)
  have ind1 : IndepFun (fun ω => (e v ω, A ω)) (fun ω i => W v' ω i - W v ω i) P :=
    (kev.prodMk kA).indep hW hvD hv'D h0v hlt.le
  have ind2 : IndepFun (fun ω => ((fun i => e v ω i - e s ω i), A ω)) (fun ω i => W v' ω i - W v ω i) P :=
    (((kev.prodMk kes).comp (f := fun c : (ι → ℝ) × (ι → ℝ) => fun i => c.1 i - c.2 i)
      (by fun_prop)).prodMk kA).indep hW hvD hv'D h0v hlt.le
  have lr : ∀ i, MemLp (fun ω => e v ω i - e s ω i) 2 P := fun i => (lev i).sub (les i)
  have s1 := meanSq_step_eq (B := fun i => β s i - β v i) ind1 lev lA (hW.memLp v hvD v' hv'D h0v hlt.le)
    (hW.mean v hvD v' hv'D h0v hlt.le) (hW.var v hvD v' hv'D h0v hlt.le)
  have s2 := meanSq_step_eq (B := fun i => β s i - β v i) ind2 lr lA (hW.memLp v hvD v' hv'D h0v hlt.le)
    (hW.mean v hvD v' hv'D h0v hlt.le) (hW.var v hvD v' hv'D h0v hlt.le)
  have e1 : e v' = fun ω i => e v ω i + A ω i * (v' - v) + (β s i - β v i) * (W v' ω i - W v ω i) := ev'
  have e2 : (fun ω i => e v' ω i - e s ω i) = fun ω i => (e v ω i - e s ω i) + A ω i * (v' - v) +
      (β s i - β v i) * (W v' ω i - W v ω i) := by
    funext ω i
    rw [e1]
    ring
  rw [← e1] at s1
  rw [← e2] at s2
  have hBv : ∑ i, (β s i - β v i) ^ 2 ≤ Λ * δ ^ 2 := by
    refine (h.noise s hsI v hvI).trans (mul_le_mul_of_nonneg_left ?_ hΛ)
    rw [← neg_sub, neg_sq]
    have : 0 ≤ v - s := by linarith
    gcongr
  have hr2 := meanProd_le (P := P) lr lA hδ
  have hq : 0 < v' - v := by linarith
  have hAn := meanSq_nonneg (P := P) A
  have hqA : (v' - v) ^ 2 * meanSq P A ≤ (v' - v) * (δ * meanSq P A) := by
    have := mul_le_mul_of_nonneg_right hd' hAn
    have := mul_le_mul_of_nonneg_left this hq.le
    linarith [this, sq (v' - v), mul_assoc (v' - v) (v' - v) (meanSq P A)]
  set mA := meanSq P A
  set U := 2 * Λ * (meanSq P (e v) + 2 * (C * R * δ ^ 2 + C * δ) + R * δ ^ 2) with hU
  set r := meanSq P fun ω i => e v ω i - e s ω i
  have hδA : δ * mA ≤ δ * U := mul_le_mul_of_nonneg_left hA1 hδ.le
  constructor
  · rw [s2]
    have t1 := mul_le_mul_of_nonneg_left hr2 hq.le
    have t2 := mul_le_mul_of_nonneg_left hBv hq.le
    have t3 := mul_le_mul_of_nonneg_left hδA hq.le
    have g : (1 + (v' - v) / δ) * r + (v' - v) * (2 * δ * U + Λ * δ ^ 2) =
        r + ((v' - v) * (r / δ + δ * U)) + (v' - v) * (δ * U) + (v' - v) * (Λ * δ ^ 2) := by ring
    rw [g, mul_add (v' - v) (r / δ)]
    rw [mul_add (v' - v) (r / δ)] at t1
    linarith
  · rw [s1]
    have t1 := mul_le_mul_of_nonneg_left hA2 hq.le
    have t2 := mul_le_mul_of_nonneg_left hBv hq.le
    have t3 := mul_le_mul_of_nonneg_left hδA hq.le
    rw [mul_add (v' - v) _ (Λ * δ ^ 2), mul_add (v' - v) _ (δ * U)]
    linarith

set_option maxHeartbeats 1000000 in
/-- **With additive noise, the scheme along a grid, and that along a finer one, differ by an error of order one.** -/
theorem nested_close (hT : 0 ≤ T) (h : AddNoise a β t0 T Λ) (x0 : ι → ℝ) :
    ∃ K ≥ 0, ∀ {Ω : Type} [MeasurableSpace Ω] {P : Measure Ω} [IsProbabilityMeasure P] {D : Set ℝ}
      {W X1 X2 : ℝ → Ω → ι → ℝ} {grid1 grid2 : List ℝ} {δ : ℝ}, Drives P t0 D W → 0 < δ →
      grid1.Pairwise (· < ·) → t0 ∈ grid1 → (∀ u ∈ grid1, u ∈ D) → Mesh grid1 δ →
      grid2.Pairwise (· < ·) → t0 ∈ grid2 → (∀ u ∈ grid2, u ∈ D) → Mesh grid2 δ → (∀ u ∈ grid1, u ∈ grid2) →
      IsScheme a (fun t _ => β t) t0 x0 grid1 W X1 → IsScheme a (fun t _ => β t) t0 x0 grid2 W X2 →
      ∀ t ∈ grid1, t0 ≤ t → t ≤ t0 + T →
        meanSq P (fun ω i => X1 t ω i - X2 t ω i) ≤ K * δ ^ 2 := by
  have hΛ := h.nonneg
  have hLip := h.lipschitz hT
  obtain ⟨C, hC0, hC⟩ := hLip.growth hT (by positivity)
  have hm := fun t ht => hLip.meas (t := t) ht
  set R := Real.exp ((1 + (1 + T) * C) * T) * (1 + ∑ i, x0 i ^ 2) with hR
  have hR0 : 0 ≤ R := mul_nonneg (Real.exp_pos _).le (add_nonneg zero_le_one (sumSq_nonneg _))
  set θ := T + 1 with hθ
  have hθ0 : 0 < θ := by linarith
  set c1 := 2 * Λ * (2 * (C * R * θ + C) + R * θ) with hc1
  have hc10 : 0 ≤ c1 := by positivity
  set c5 := Λ * C + 2 * Λ * (R + C * R) + Fintype.card ι * (Λ * C ^ 2) with hc5
  have hc50 : 0 ≤ c5 := by positivity
  set κ := 3 + Λ + Real.exp 1 * (4 * Λ * θ) + 2 * Λ * θ with hκ
  have hκ0 : 0 ≤ κ := by positivity
  set E := Real.exp 1 * (2 * c1 + Λ) + c5 + c1 + Λ with hE
  have hE0 : 0 ≤ E := by positivity
  refine ⟨Real.exp (κ * T) * (E * T), by positivity, ?_⟩
  intro Ω _ P _ D W X1 X2 grid1 grid2 δ0 hW hδ0 hg1 h01 hD1 hm1 hg2 h02 hD2 hm2 hsub hX1 hX2 t ht1 h0t htT
  set δ := min δ0 θ with hδd
  have hδ : 0 < δ := lt_min hδ0 hθ0
  have hδθ : δ ≤ θ := min_le_right _ _
  let e : ℝ → Ω → ι → ℝ := fun v ω i => between a (fun t _ => β t) grid1 W X1 v ω i - X2 v ω i
  let φ : ℝ → ℝ := fun v => Real.exp (κ * (v - t0)) * (E * δ ^ 2 * (v - t0))
  have hφm : ∀ u v, t0 ≤ u → u ≤ v → φ u ≤ φ v := by
    intro u v hu huv
    simp only [φ]
    have : 0 ≤ u - t0 := by linarith
    gcongr
  have hφ0 : ∀ v, t0 ≤ v → 0 ≤ φ v := fun v hv => by
    have : 0 ≤ v - t0 := by linarith
    simp only [φ]
    positivity
  have hU : ∀ x f, x ≤ f → 2 * Λ * (x + 2 * (C * R * δ ^ 2 + C * δ) + R * δ ^ 2) ≤ 2 * Λ * f + c1 * δ := by
    intro x f hxf
    have e1 : 2 * Λ * f + c1 * δ = 2 * Λ * (f + 2 * (C * R * (θ * δ) + C * δ) + R * (θ * δ)) := by
      rw [hc1]; ring
    rw [e1]
    have : δ ^ 2 ≤ θ * δ := by rw [sq]; gcongr
    gcongr
  have hdist : ∀ v, t0 ≤ v → v ≤ t → v - lastAt grid1 v ≤ δ := by
    intro v h0v hvt
    refine le_min (lastAt_mesh hg1 h01 h0v ht1 hvt hm1 hδ0.le) ?_
    have := (lastAt_spec hg1 h01 h0v).2.1
    linarith
  have hstep := fun {v v' : ℝ} (hst : StepOf grid2 t0 v v') (h0v : t0 ≤ v) (hlt : v < v') (hv't : v' ≤ t) =>
    nested_step (P := P) hT h hC0 hm hC hR hW hδ hg1 h01 hD1 hg2 h02 hD2 hsub hX1 hX2 (e := e) rfl hst h0v hlt
      (hv't.trans htT) (hdist v h0v (hlt.le.trans hv't)) (by
        refine le_min ?_ (by linarith)
        rcases hst.2.2 with ⟨-, -, hno⟩ | ⟨-, hc, -⟩
        · exact hm2 v hst.1 v' hst.2.1 hlt hno
        · exact absurd hlt (not_lt.2 hc.le))
  have key := grid_induction hg2 h02 (Q := fun w => w ≤ t → ∀ u ∈ grid2, t0 ≤ u → u ≤ w → meanSq P (e u) ≤ φ u)
    ?_ ?_ t (hsub t ht1) h0t le_rfl t (hsub t ht1) h0t le_rfl
  · have e1 : e t = fun ω i => X1 t ω i - X2 t ω i := by
      funext ω i
      simp only [e, between_self hg1 h01 h0t ht1]
    rw [e1] at key
    refine key.trans ?_
    have i1 : t - t0 ≤ T := by linarith
    have i2 : 0 ≤ t - t0 := by linarith
    have i3 : δ ≤ δ0 := min_le_left _ _
    calc _ ≤ Real.exp (κ * T) * (E * δ0 ^ 2 * T) := by simp only [φ]; gcongr
      _ = _ := by ring
  · intro _ u _ h0u hu
    obtain rfl : u = t0 := le_antisymm hu h0u
    have e1 : e u = fun _ _ => 0 := by
      funext ω i
      simp only [e, between_self hg1 h01 le_rfl h01, hX1.start, hX2.start, sub_self]
    rw [e1]
    refine le_trans (le_of_eq ?_) (hφ0 u le_rfl)
    simp [meanSq]
  · intro w w' hst h0w hlt ih hw't u hu h0u huw'
    have hwt := hlt.le.trans hw't
    have ih := ih hwt
    rcases huw'.eq_or_lt with rfl | huw'
    swap
    · have hno : ∀ c ∈ grid2, ¬ (w < c ∧ c < w') := by
        rcases hst.2.2 with ⟨-, -, hno⟩ | ⟨-, hc, -⟩
        · exact hno
        · exact absurd hlt (not_lt.2 hc.le)
      exact ih u hu h0u (not_lt.1 fun hc => hno u hu ⟨hc, huw'⟩)
    obtain ⟨p1, p2, p3, p4⟩ := lastAt_spec hg1 h01 h0w
    set s := lastAt grid1 w with hs
    set f := φ w with hf
    have hf0 : 0 ≤ f := hφ0 w h0w
    set H := 2 * δ * (2 * Λ * f + c1 * δ) + Λ * δ ^ 2 with hH
    have hH0 : 0 ≤ H := by positivity
    -- from the start of the step
    have hr := grid_induction hg2 h02 (Q := fun v => lastAt grid1 v = s → v ≤ w →
      meanSq P (fun ω i => e v ω i - e s ω i) ≤ Real.exp ((v - s) / δ) * ((v - s) * H)) ?_ ?_ w hst.1 h0w rfl le_rfl
    rotate_left
    · intro hl _
      rw [lastAt_self hg1 h01 le_rfl h01] at hl
      rw [hl]
      simp [meanSq]
    · intro v v' hvst h0v hvlt ihv hl hv'w
      obtain ⟨q1, q2, q3, q4⟩ := lastAt_spec hg1 h01 h0v
      by_cases hm' : v' ∈ grid1
      · rw [lastAt_self hg1 h01 (h0v.trans hvlt.le) hm'] at hl
        rw [hl]
        simp [meanSq]
      · have hno : ∀ c ∈ grid2, ¬ (v < c ∧ c < v') := by
          rcases hvst.2.2 with ⟨-, -, hno⟩ | ⟨-, hc, -⟩
          · exact hno
          · exact absurd hvlt (not_lt.2 hc.le)
        have hlv : lastAt grid1 v = s := by
          rw [← hl]
          refine (lastAt_congr hg1 h01 h0v hvlt.le ?_).symm
          rintro c hc ⟨c1, c2⟩
          rcases c2.eq_or_lt with rfl | c2
          · exact hm' hc
          · exact hno c (hsub c hc) ⟨c1, c2⟩
        have ihv := ihv hlv (hvlt.le.trans hv'w)
        have hone := (hstep hvst h0v hvlt (hv'w.trans hwt)).1
        rw [hlv] at hone q3
        have hmv : meanSq P (e v) ≤ f :=
          (ih v hvst.1 h0v (hvlt.le.trans hv'w)).trans (hφm v w h0v (hvlt.le.trans hv'w))
        have hUv := hU _ _ hmv
        set r := meanSq P fun ω i => e v ω i - e s ω i
        have hq : 0 < v' - v := by linarith
        have hvs : 0 ≤ v - s := by linarith
        have n0 : 0 ≤ r := meanSq_nonneg _
        have i1 : (v' - v) * (2 * δ * (2 * Λ * (meanSq P (e v) + 2 * (C * R * δ ^ 2 + C * δ) + R * δ ^ 2)) +
            Λ * δ ^ 2) ≤ (v' - v) * H := by
          rw [hH]
          gcongr
        have i2 : 1 + (v' - v) / δ ≤ Real.exp ((v' - v) / δ) := by
          rw [add_comm]; exact Real.add_one_le_exp _
        have i3 : 1 ≤ Real.exp ((v' - s) / δ) := Real.one_le_exp (div_nonneg (by linarith) hδ.le)
        calc _ ≤ (1 + (v' - v) / δ) * r + (v' - v) * H := hone.trans (by gcongr)
          _ ≤ Real.exp ((v' - v) / δ) * (Real.exp ((v - s) / δ) * ((v - s) * H)) +
              Real.exp ((v' - s) / δ) * ((v' - v) * H) := by
            refine add_le_add (mul_le_mul i2 ihv n0 (Real.exp_pos _).le) ?_
            exact le_mul_of_one_le_left (by positivity) i3
          _ = _ := by
            rw [← mul_assoc, ← Real.exp_add]
            have : (v' - v) / δ + (v - s) / δ = (v' - s) / δ := by ring
            rw [this]
            ring
    have hws : w - s ≤ δ := hdist w h0w hwt
    have hws0 : 0 ≤ w - s := by linarith
    have hrδ : meanSq P (fun ω i => e w ω i - e s ω i) / δ ≤ Real.exp 1 * H := by
      rw [div_le_iff₀ hδ]
      refine hr.trans ?_
      have i1 : (w - s) / δ ≤ 1 := by rw [div_le_one hδ]; exact hws
      calc _ ≤ Real.exp 1 * (δ * H) := by gcongr
        _ = _ := by ring
    have htwo := (hstep hst h0w hlt hw't).2
    rw [← hs] at htwo
    have hmw : meanSq P (e w) ≤ f := ih w hst.1 h0w le_rfl
    have hms : meanSq P (e s) ≤ f := (ih s (hsub s p1) p2 p3).trans (hφm s w p2 p3)
    have hUw := hU _ _ hmw
    have hq : 0 < u - w := by linarith
    set q := u - w with hqd
    have j1 : meanSq P (e u) ≤ f + q * ((2 + Λ) * f + f + Real.exp 1 * H + c5 * δ ^ 2 +
        δ * (2 * Λ * f + c1 * δ) + Λ * δ ^ 2) := by
      refine htwo.trans ?_
      gcongr
    have j2 : f + q * ((2 + Λ) * f + f + Real.exp 1 * H + c5 * δ ^ 2 +
        δ * (2 * Λ * f + c1 * δ) + Λ * δ ^ 2) ≤ (1 + κ * q) * f + E * δ ^ 2 * q := by
      have e1 : (1 + κ * q) * f + E * δ ^ 2 * q = f + q * ((2 + Λ) * f + f +
          Real.exp 1 * (2 * (2 * Λ * (θ * f) + c1 * δ ^ 2) + Λ * δ ^ 2) + c5 * δ ^ 2 +
          (2 * Λ * (θ * f) + c1 * δ ^ 2) + Λ * δ ^ 2) := by
        rw [hκ, hE]; ring
      rw [e1, hH]
      have e2 : δ * (2 * Λ * f + c1 * δ) = 2 * Λ * (δ * f) + c1 * δ ^ 2 := by ring
      have e3 : 2 * δ * (2 * Λ * f + c1 * δ) = 2 * (2 * Λ * (δ * f) + c1 * δ ^ 2) := by ring
      rw [e2, e3]
      gcongr
    have i5 : 1 + κ * q ≤ Real.exp (κ * q) := by
      rw [add_comm]; exact Real.add_one_le_exp _
    have i6 : 1 ≤ Real.exp (κ * (u - t0)) := Real.one_le_exp (mul_nonneg hκ0 (by linarith))
    calc _ ≤ (1 + κ * q) * f + E * δ ^ 2 * q := j1.trans j2
      _ ≤ Real.exp (κ * q) * f + Real.exp (κ * (u - t0)) * (E * δ ^ 2 * q) := by
        refine add_le_add (mul_le_mul_of_nonneg_right i5 hf0) ?_
        exact le_mul_of_one_le_left (by positivity) i6
      _ = _ := by
        simp only [hf, φ]
        rw [← mul_assoc, ← Real.exp_add]
        have : κ * q + κ * (w - t0) = κ * (u - t0) := by rw [hqd]; ring
        rw [this, hqd]
        ring

end

end Sdepy
