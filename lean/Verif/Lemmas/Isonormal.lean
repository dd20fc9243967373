import Verif.Lemmas.StrongLimit
import Mathlib.Analysis.InnerProductSpace.l2Space
import Mathlib.Probability.HasLawExists
import Mathlib.Analysis.SpecialFunctions.Trigonometric.Bounds
import Mathlib.MeasureTheory.Measure.Lebesgue.Basic
import Mathlib.Analysis.InnerProductSpace.PiL2
import Mathlib.Analysis.Matrix.Order

/-!
# A Wiener process defined at all times exists

Independent normal variables are mapped on a basis of a space of square integrable functions; the value of the process
at time `t` is the image of the indicator function of the times up to `t`.
-/

open MeasureTheory ProbabilityTheory Filter Topology
open scoped RealInnerProductSpace Matrix MatrixOrder ComplexOrder

namespace Sdepy

variable {Ω : Type} [MeasurableSpace Ω] {P : Measure Ω} [IsProbabilityMeasure P]

theorem inner_lp (X Y : Lp ℝ 2 P) : ⟪X, Y⟫ = ∫ ω, X ω * Y ω ∂P := by
  rw [L2.inner_def]
  refine integral_congr_ae (.of_forall fun ω => ?_)
  simp only [RCLike.inner_apply, conj_trivial]
  ring

theorem norm_const_one : ‖(memLp_const (1 : ℝ) : MemLp (fun _ : Ω => (1 : ℝ)) 2 P).toLp‖ = 1 := by
  have h := norm_sq_toLp (P := P) (memLp_const (1 : ℝ))
  simp only [one_pow, integral_const, probReal_univ, smul_eq_mul, mul_one] at h
  exact (pow_eq_one_iff_of_nonneg (norm_nonneg _) two_ne_zero).1 h

theorem inner_one (X : Lp ℝ 2 P) :
    ⟪(memLp_const (1 : ℝ) : MemLp (fun _ : Ω => (1 : ℝ)) 2 P).toLp, X⟫ = ∫ ω, X ω ∂P := by
  rw [inner_lp]
  refine integral_congr_ae ?_
  filter_upwards [(memLp_const (1 : ℝ) : MemLp (fun _ : Ω => (1 : ℝ)) 2 P).coeFn_toLp] with ω h
  rw [h, one_mul]

theorem integral_abs_le (X : Lp ℝ 2 P) : ∫ ω, |X ω| ∂P ≤ ‖X‖ := by
  have hX : MemLp X 2 P := Lp.memLp X
  have habs : MemLp (fun ω => |X ω|) 2 P := hX.abs
  have h1 := inner_one (habs.toLp _)
  have h2 := real_inner_le_norm (memLp_const (1 : ℝ) : MemLp (fun _ : Ω => (1 : ℝ)) 2 P).toLp (habs.toLp _)
  rw [norm_const_one, one_mul, h1] at h2
  have e1 : ∫ ω, habs.toLp _ ω ∂P = ∫ ω, |X ω| ∂P := integral_congr_ae habs.coeFn_toLp
  have e2 : ‖habs.toLp _‖ = ‖X‖ := by
    rw [← sq_eq_sq₀ (norm_nonneg _) (norm_nonneg _), norm_sq_toLp, ← real_inner_self_eq_norm_sq, inner_lp]
    refine integral_congr_ae (.of_forall fun ω => ?_)
    simp only [sq_abs]
    ring
  rwa [e1, e2] at h2

theorem var_lp {X : Lp ℝ 2 P} (h : ∫ ω, X ω ∂P = 0) : Var[X; P] = ‖X‖ ^ 2 := by
  rw [variance_eq_sub (Lp.memLp X : MemLp (X : Ω → ℝ) 2 P), h, ← real_inner_self_eq_norm_sq, inner_lp]
  simp only [ne_eq, OfNat.ofNat_ne_zero, not_false_eq_true, zero_pow, sub_zero]
  refine integral_congr_ae (.of_forall fun ω => ?_)
  simp [sq]

theorem integrable_cexp (X : Lp ℝ 2 P) : Integrable (fun ω => Complex.exp (X ω * Complex.I)) P := by
  refine Integrable.of_bound (C := 1) ?_ (.of_forall fun ω => ?_)
  · exact (Complex.continuous_exp.comp (Complex.continuous_ofReal.mul continuous_const)).comp_aestronglyMeasurable
      (Lp.aestronglyMeasurable X)
  · rw [Complex.norm_exp_ofReal_mul_I]

theorem continuous_chf : Continuous fun X : Lp ℝ 2 P => ∫ ω, Complex.exp (X ω * Complex.I) ∂P := by
  refine (LipschitzWith.of_dist_le_mul (K := 1) fun X Y => ?_).continuous
  rw [dist_eq_norm, dist_eq_norm, ← integral_sub (integrable_cexp X) (integrable_cexp Y), NNReal.coe_one, one_mul]
  refine (norm_integral_le_integral_norm _).trans ?_
  refine le_trans ?_ (integral_abs_le (X - Y))
  have hXY : MemLp (fun ω => X ω - Y ω) 2 P := (Lp.memLp X).sub (Lp.memLp Y)
  have e : ∫ ω, |(X - Y : Lp ℝ 2 P) ω| ∂P = ∫ ω, |X ω - Y ω| ∂P := by
    refine integral_congr_ae ?_
    filter_upwards [Lp.coeFn_sub X Y] with ω h
    rw [h, Pi.sub_apply]
  rw [e]
  refine integral_mono ((integrable_cexp X).sub (integrable_cexp Y)).norm
    (hXY.abs.integrable (by norm_num)) fun ω => ?_
  have h1 : Complex.exp (X ω * Complex.I) - Complex.exp (Y ω * Complex.I) =
      Complex.exp (Y ω * Complex.I) * (Complex.exp (Complex.I * ((X ω - Y ω : ℝ) : ℂ)) - 1) := by
    rw [mul_sub, ← Complex.exp_add, mul_one]
    congr 2
    push_cast
    ring
  simp only
  rw [h1, norm_mul, Complex.norm_exp_ofReal_mul_I, one_mul]
  exact Real.norm_exp_I_mul_ofReal_sub_one_le

/-- Independent normal variables, one for each element of an orthonormal basis, define jointly Gaussian variables for
all elements of the space, with covariances equal to inner products. -/
theorem exists_isonormal (H : Type) [NormedAddCommGroup H] [InnerProductSpace ℝ H] [CompleteSpace H] :
    ∃ (Ω : Type) (_ : MeasurableSpace Ω) (P : Measure Ω) (Z : H → Ω → ℝ), IsProbabilityMeasure P ∧
      IsGaussianProcess Z P ∧ (∀ f, ∫ ω, Z f ω ∂P = 0) ∧ ∀ f g, cov[Z f, Z g; P] = ⟪f, g⟫ := by
  classical
  obtain ⟨w, b, -⟩ := exists_hilbertBasis ℝ H
  obtain ⟨Ω, mΩ, P, ξ, hm, hlaw, hind, hP⟩ := exists_iid w (gaussianReal 0 1)
  have hgp : IsGaussianProcess ξ P := gauss_of_indep (fun p => (hlaw p).hasGaussianLaw) hind
  have l2 : ∀ j, MemLp (ξ j) 2 P := fun j =>
    (memLp_id_gaussianReal 2).comp_measurePreserving ((hlaw j).measurePreserving (hm _))
  have hmean : ∀ j, ∫ ω, ξ j ω ∂P = 0 := fun j => by rw [(hlaw j).integral_eq, integral_id_gaussianReal]
  have hcov : ∀ i j, ∫ ω, ξ i ω * ξ j ω ∂P = if i = j then 1 else 0 := by
    intro i j
    have h := covariance_eq_sub (l2 i) (l2 j)
    rw [hmean, zero_mul, sub_zero] at h
    rw [show ∫ ω, ξ i ω * ξ j ω ∂P = P[ξ i * ξ j] from rfl, ← h]
    by_cases hij : i = j
    · subst hij
      rw [if_pos rfl, covariance_self (hm _).aemeasurable, (hlaw i).variance_eq, variance_id_gaussianReal]
      rfl
    · rw [if_neg hij, (hind.indepFun hij).covariance_eq_zero (l2 _) (l2 _)]
  have hv : Orthonormal ℝ fun i => (l2 i).toLp (ξ i) := by
    classical
    rw [orthonormal_iff_ite]
    intro i j
    rw [inner_lp, ← hcov]
    refine integral_congr_ae ?_
    filter_upwards [(l2 i).coeFn_toLp, (l2 j).coeFn_toLp] with ω h1 h2
    rw [h1, h2]
  let Φ : H →ₗᵢ[ℝ] Lp ℝ 2 P := hv.orthogonalFamily.linearIsometry.comp b.repr.toLinearIsometry
  have hΦ : ∀ f, HasSum (fun i => b.repr f i • (l2 i).toLp (ξ i)) (Φ f) := fun f =>
    hv.orthogonalFamily.hasSum_linearIsometry (b.repr f)
  -- finite sums
  have hfin : ∀ (c : w → ℝ) (s : Finset w),
      ∫ ω, (∑ i ∈ s, c i • (l2 i).toLp (ξ i) : Lp ℝ 2 P) ω ∂P = 0 ∧
      ∫ ω, Complex.exp (((∑ i ∈ s, c i • (l2 i).toLp (ξ i) : Lp ℝ 2 P) ω : ℂ) * Complex.I) ∂P =
        Complex.exp (-(‖(∑ i ∈ s, c i • (l2 i).toLp (ξ i) : Lp ℝ 2 P)‖ ^ 2 : ℝ) / 2) := by
    intro c s
    have hae : ((∑ i ∈ s, c i • (l2 i).toLp (ξ i) : Lp ℝ 2 P) : Ω → ℝ) =ᵐ[P] fun ω => ∑ i ∈ s, c i * ξ i ω := by
      classical
      induction s using Finset.induction_on with
      | empty =>
        simp only [Finset.sum_empty]
        exact Lp.coeFn_zero ℝ 2 P
      | insert i s hi ih =>
        rw [Finset.sum_insert hi]
        filter_upwards [Lp.coeFn_add (c i • (l2 i).toLp (ξ i)) (∑ i ∈ s, c i • (l2 i).toLp (ξ i)), ih,
          Lp.coeFn_smul (c i) ((l2 i).toLp (ξ i)), (l2 i).coeFn_toLp] with ω h1 h2 h3 h4
        rw [h1, Pi.add_apply, h2, h3, Pi.smul_apply, h4, Finset.sum_insert hi, smul_eq_mul]
    set U := (∑ i ∈ s, c i • (l2 i).toLp (ξ i) : Lp ℝ 2 P) with hU
    have hg : HasGaussianLaw (fun ω => ∑ i ∈ s, c i * ξ i ω) P := by
      have := gauss_of_affSpan (S := Unit) (Y := fun _ ω => ∑ i ∈ s, c i * ξ i ω) hgp (fun _ => by
        have e : (fun ω => ∑ i ∈ s, c i * ξ i ω) = ∑ i ∈ s, c i • ξ i := by
          funext ω; simp [Finset.sum_apply]
        rw [e]
        exact Submodule.sum_mem _ fun i _ => Submodule.smul_mem _ _ (affSpan_draw ξ i))
      exact this.hasGaussianLaw_eval ()
    have hgU : HasGaussianLaw U P := hg.congr hae.symm
    have hm0 : ∫ ω, U ω ∂P = 0 := by
      rw [integral_congr_ae hae, integral_finsetSum _ fun i _ => ((l2 i).integrable (by norm_num)).const_mul _]
      exact Finset.sum_eq_zero fun i _ => by rw [integral_const_mul, hmean, mul_zero]
    refine ⟨hm0, ?_⟩
    have hch := hgU.charFunDual_map_eq (ContinuousLinearMap.id ℝ ℝ)
    have hvar : Var[(ContinuousLinearMap.id ℝ ℝ) ∘ U; P] = ‖U‖ ^ 2 := var_lp hm0
    have hmean' : P[(ContinuousLinearMap.id ℝ ℝ) ∘ U] = 0 := hm0
    rw [hvar, hmean', charFunDual_apply, integral_map hgU.aemeasurable (by fun_prop)] at hch
    simp only [ContinuousLinearMap.coe_id', id_eq, Complex.ofReal_zero, zero_mul, zero_sub] at hch
    rw [hch]
    congr 1
    ring
  have hm0 : ∀ f, ∫ ω, Φ f ω ∂P = 0 := by
    intro f
    have h1 : Tendsto (fun s : Finset w => ⟪(memLp_const (1 : ℝ) : MemLp (fun _ : Ω => (1 : ℝ)) 2 P).toLp,
        ∑ i ∈ s, b.repr f i • (l2 i).toLp (ξ i)⟫) atTop
        (𝓝 ⟪(memLp_const (1 : ℝ) : MemLp (fun _ : Ω => (1 : ℝ)) 2 P).toLp, Φ f⟫) :=
      tendsto_const_nhds.inner (hΦ f)
    simp only [inner_one, (hfin _ _).1] at h1
    exact tendsto_nhds_unique h1 tendsto_const_nhds
  have hchf : ∀ f, ∫ ω, Complex.exp (Φ f ω * Complex.I) ∂P = Complex.exp (-(‖Φ f‖ ^ 2 : ℝ) / 2) := by
    intro f
    have h1 := (continuous_chf.tendsto (Φ f)).comp (hΦ f)
    have h2 : Tendsto (fun s : Finset w =>
        Complex.exp (-(‖(∑ i ∈ s, b.repr f i • (l2 i).toLp (ξ i) : Lp ℝ 2 P)‖ ^ 2 : ℝ) / 2)) atTop
        (𝓝 (Complex.exp (-(‖Φ f‖ ^ 2 : ℝ) / 2))) := by
      have hc : Continuous fun X : Lp ℝ 2 P => Complex.exp (-(‖X‖ ^ 2 : ℝ) / 2) := by fun_prop
      exact (hc.tendsto (Φ f)).comp (hΦ f)
    refine tendsto_nhds_unique h1 (h2.congr fun s => ?_)
    exact ((hfin _ s).2).symm
  have hml : ∀ f, MemLp (fun ω => Φ f ω) 2 P := fun f => Lp.memLp (Φ f)
  refine ⟨Ω, mΩ, P, fun f ω => Φ f ω, hP, ⟨fun I => ?_⟩, hm0, fun f g => ?_⟩
  · have hmeas : AEMeasurable (fun ω => I.restrict (fun f => Φ f ω)) P :=
      aemeasurable_pi_lambda _ fun f => (hml f).aestronglyMeasurable.aemeasurable
    rw [hasGaussianLaw_iff_charFunDual_map_eq hmeas]
    intro L
    classical
    let c : I → ℝ := fun f => L (Pi.single f 1)
    let g : H := ∑ f : I, c f • (f : H)
    have hL : ∀ x : I → ℝ, L x = ∑ f, c f * x f := by
      intro x
      conv_lhs => rw [← Finset.univ_sum_single x]
      rw [map_sum]
      refine Finset.sum_congr rfl fun f _ => ?_
      have : Pi.single f (x f) = x f • (Pi.single f 1 : I → ℝ) := by
        rw [← Pi.single_smul, smul_eq_mul, mul_one]
      rw [this, map_smul, smul_eq_mul, mul_comm]
    have hae : (fun ω => L (I.restrict fun f => Φ f ω)) =ᵐ[P] Φ g := by
      have hs : ∀ s : Finset I, (fun ω => ∑ f ∈ s, c f * Φ (f : H) ω) =ᵐ[P]
          ((∑ f ∈ s, c f • Φ (f : H) : Lp ℝ 2 P) : Ω → ℝ) := by
        intro s
        induction s using Finset.induction_on with
        | empty =>
          simp only [Finset.sum_empty]
          exact (Lp.coeFn_zero ℝ 2 P).symm
        | insert i s hi ih =>
          rw [Finset.sum_insert hi]
          filter_upwards [Lp.coeFn_add (c i • Φ (i : H)) (∑ i ∈ s, c i • Φ (i : H)), ih,
            Lp.coeFn_smul (c i) (Φ (i : H))] with ω h1 h2 h3
          rw [h1, Pi.add_apply, h3, Pi.smul_apply, Finset.sum_insert hi, smul_eq_mul, h2]
      have e : Φ g = ∑ f : I, c f • Φ (f : H) := by
        simp only [g, map_sum, map_smul]
      rw [e]
      refine EventuallyEq.trans (.of_forall fun ω => ?_) (hs Finset.univ)
      simp only [hL, Finset.restrict]
    rw [charFunDual_apply, integral_map hmeas (by fun_prop)]
    have e1 : ∫ ω, Complex.exp (L (I.restrict fun f => Φ f ω) * Complex.I) ∂P =
        ∫ ω, Complex.exp (Φ g ω * Complex.I) ∂P := by
      refine integral_congr_ae ?_
      filter_upwards [hae] with ω h
      rw [h]
    have e2 : P[L ∘ fun ω => I.restrict fun f => Φ f ω] = 0 := by
      rw [← hm0 g]
      exact integral_congr_ae hae
    have e3 : Var[L ∘ fun ω => I.restrict fun f => Φ f ω; P] = ‖Φ g‖ ^ 2 := (variance_congr hae).trans (var_lp (hm0 g))
    rw [e1, e2, e3, hchf]
    congr 1
    push_cast
    ring
  · rw [covariance_eq_sub (hml f) (hml g), hm0, zero_mul, sub_zero, ← Φ.inner_map_map, inner_lp]
    rfl

theorem volume_uIoc_ne (t0 u : ℝ) : (volume (Set.uIoc t0 u)) ≠ ⊤ := by
  simp [Set.uIoc, Real.volume_Ioc]

/-- Times between `t0` and `u`. -/
noncomputable def span (t0 u : ℝ) : Lp ℝ 2 (volume : Measure ℝ) :=
  indicatorConstLp 2 (measurableSet_uIoc (a := t0) (b := u)) (volume_uIoc_ne t0 u) (1 : ℝ)

theorem inner_span (t0 u v : ℝ) : ⟪span t0 u, span t0 v⟫ =
    if t0 ≤ u ∧ t0 ≤ v then min u v - t0 else if u ≤ t0 ∧ v ≤ t0 then t0 - max u v else 0 := by
  unfold span
  rw [L2.real_inner_indicatorConstLp_one_indicatorConstLp_one measurableSet_uIoc measurableSet_uIoc
    (volume_uIoc_ne t0 u) (volume_uIoc_ne t0 v)]
  by_cases h1 : t0 ≤ u ∧ t0 ≤ v
  · rw [if_pos h1, Set.uIoc_of_le h1.1, Set.uIoc_of_le h1.2, Set.Ioc_inter_Ioc, max_self, Real.volume_real_Ioc_of_le]
    exact le_min h1.1 h1.2
  · rw [if_neg h1]
    by_cases h2 : u ≤ t0 ∧ v ≤ t0
    · rw [if_pos h2, Set.uIoc_of_ge h2.1, Set.uIoc_of_ge h2.2, Set.Ioc_inter_Ioc, min_self, Real.volume_real_Ioc_of_le]
      exact max_le h2.1 h2.2
    · rw [if_neg h2]
      have : Set.uIoc t0 u ∩ Set.uIoc t0 v = ∅ := by
        rw [← Set.disjoint_iff_inter_eq_empty, Set.disjoint_left]
        intro x hx hy
        rw [Set.mem_uIoc] at hx hy
        rcases hx with hx | hx <;> rcases hy with hy | hy
        · exact h1 ⟨by linarith, by linarith⟩
        · linarith
        · linarith
        · exact h2 ⟨by linarith, by linarith⟩
      rw [this, measureReal_empty]

theorem cov_congr {X X' Y Y' : Ω → ℝ} (hX : X =ᵐ[P] X') (hY : Y =ᵐ[P] Y') : cov[X, Y; P] = cov[X', Y'; P] := by
  unfold covariance
  rw [integral_congr_ae hX, integral_congr_ae hY]
  refine integral_congr_ae ?_
  filter_upwards [hX, hY] with ω h1 h2
  rw [h1, h2]

/-- A Wiener process, that starts at `t0` in both directions, with given correlations, defined at all times. -/
theorem exists_wiener {ι κ : Type} [Fintype ι] [Fintype κ] [DecidableEq ι] [DecidableEq κ] {C : Matrix κ κ ℝ}
    (hC : C.PosSemidef) (t0 : ℝ) (z0 : ι → κ → ℝ) :
    ∃ (Ω : Type) (_ : MeasurableSpace Ω) (P : Measure Ω) (W : ℝ → Ω → ι → κ → ℝ), IsProbabilityMeasure P ∧
      Spec.IsWienerProcess P (fun u => u • C) t0 z0 Set.univ W := by
  obtain ⟨L, hL⟩ : ∃ L : Matrix κ κ ℝ, C = L * Lᵀ := by
    obtain ⟨a, ha⟩ := CStarAlgebra.nonneg_iff_eq_star_mul_self.mp hC.nonneg
    refine ⟨aᵀ, ?_⟩
    rw [ha, Matrix.transpose_transpose, Matrix.star_eq_conjTranspose, Matrix.conjTranspose_eq_transpose_of_trivial]
  obtain ⟨Ω, mΩ, P, Z, hP, hZ, hm, hc⟩ := exists_isonormal (PiLp 2 fun _ : ι × κ => Lp ℝ 2 (volume : Measure ℝ))
  let e : ℝ → ι → κ → PiLp 2 fun _ : ι × κ => Lp ℝ 2 (volume : Measure ℝ) := fun u i k =>
    WithLp.toLp 2 fun c => if c.1 = i then L k c.2 • span t0 u else 0
  have hin : ∀ u v i j k l, ⟪e u i k, e v j l⟫ = if i = j then C k l * ⟪span t0 u, span t0 v⟫ else 0 := by
    intro u v i j k l
    rw [PiLp.inner_apply, Fintype.sum_prod_type]
    by_cases hij : i = j
    · subst hij
      rw [if_pos rfl, Finset.sum_eq_single i]
      · simp only [e, if_true, real_inner_smul_left, real_inner_smul_right]
        rw [hL, Matrix.mul_apply, Finset.sum_mul]
        exact Finset.sum_congr rfl fun m _ => by rw [Matrix.transpose_apply]; ring
      · intro i' _ hi
        exact Finset.sum_eq_zero fun m _ => by simp [e, hi]
      · intro h; exact absurd (Finset.mem_univ i) h
    · rw [if_neg hij]
      refine Finset.sum_eq_zero fun i' _ => Finset.sum_eq_zero fun m _ => ?_
      by_cases hi : i' = i
      · subst hi
        simp [e, hij]
      · simp [e, hi]
  have hml : ∀ f, MemLp (Z f) 2 P := fun f => (hZ.hasGaussianLaw_eval f).memLp_two
  have h0 : ∀ i k, Z (e t0 i k) =ᵐ[P] 0 := by
    intro i k
    have hv : Var[Z (e t0 i k); P] = 0 := by
      rw [← covariance_self (hml _).aestronglyMeasurable.aemeasurable, hc, hin, if_pos rfl, inner_span]
      simp
    have he : eVar[Z (e t0 i k); P] = 0 := by
      rw [← (hml _).ofReal_variance_eq, hv, ENNReal.ofReal_zero]
    rw [evariance_eq_zero_iff (hml _).aestronglyMeasurable.aemeasurable, hm] at he
    exact he
  let W : ℝ → Ω → ι → κ → ℝ := fun u ω i k => z0 i k + if u = t0 then 0 else Z (e u i k) ω
  have hW : ∀ u i k, (fun ω => W u ω i k) =ᵐ[P] fun ω => z0 i k + Z (e u i k) ω := by
    intro u i k
    by_cases hu : u = t0
    · subst hu
      filter_upwards [h0 i k] with ω h
      simp only [W, if_true, h, Pi.zero_apply]
    · exact .of_forall fun ω => by simp only [W, if_neg hu]
  refine ⟨Ω, mΩ, P, W, hP, ⟨fun ω => by funext i k; simp [W], ?_, fun u _ i k => ?_, fun u _ v _ i j k l => ?_⟩⟩
  · have hg : IsGaussianProcess (fun (p : ↥(Set.univ : Set ℝ) × ι × κ) ω => Z (e p.1 p.2.1 p.2.2) ω) P :=
      hZ.comp_right fun p : ↥(Set.univ : Set ℝ) × ι × κ => e p.1 p.2.1 p.2.2
    exact (gauss_add_const hg fun p => z0 p.2.1 p.2.2).congr fun p => (hW p.1 p.2.1 p.2.2).symm
  · rw [integral_congr_ae (hW u i k), integral_add (integrable_const _) ((hml _).integrable (by norm_num)), hm]
    simp
  · rw [cov_congr (hW u i k) (hW v j l), covariance_const_add_left ((hml _).integrable (by norm_num)),
      covariance_const_add_right ((hml _).integrable (by norm_num)), hc, hin, inner_span]
    by_cases hij : i = j
    · rw [if_pos hij, if_pos hij]
      unfold Spec.wienerCov
      by_cases h1 : t0 ≤ u ∧ t0 ≤ v
      · rw [if_pos h1, if_pos h1]
        simp [sub_mul, mul_comm, mul_sub]
      · rw [if_neg h1, if_neg h1]
        by_cases h2 : u ≤ t0 ∧ v ≤ t0
        · rw [if_pos h2, if_pos h2]
          simp [sub_mul, mul_comm, mul_sub]
        · rw [if_neg h2, if_neg h2]
          simp
    · rw [if_neg hij, if_neg hij]

end Sdepy
