import Verif.Lemmas.OuLaw
import Verif.Lemmas.OuLimit
import Verif.Props.WienerLaw

/-!
# Property C65: the law of simulated Ornstein-Uhlenbeck and Hull-White processes, and its limit
-/

set_option linter.unusedSectionVars false
set_option linter.unusedSimpArgs false

open MeasureTheory ProbabilityTheory Matrix

namespace Sdepy

open Spec

variable {Ω ι κ : Type} [MeasurableSpace Ω] [Fintype κ] [DecidableEq κ] [DecidableEq ι]
  {P : Measure Ω} [IsProbabilityMeasure P]

theorem Spec.IsEulerOU.mono {theta k sigma : ℝ → ι × κ → ℝ} {C : ℝ → Matrix κ κ ℝ} {t0 : ℝ}
    {x0 : ι × κ → ℝ} {grid : List ℝ} {D D' : Set ℝ} {X : ℝ → Ω → ι × κ → ℝ}
    (h : IsEulerOU P theta k sigma C t0 x0 grid D X) (hD : D' ⊆ D) :
    IsEulerOU P theta k sigma C t0 x0 grid D' X :=
  ⟨h.start, gauss_of_affSpan h.gauss fun p => affSpan_draw
      (fun (p : D × ι × κ) ω => X p.1 ω p.2) (⟨p.1, hD p.1.2⟩, p.2),
    fun t ht => h.mean t (hD ht), fun t ht => h.cov t (hD ht)⟩

/-! ### The law of simulated values -/

section
variable {corr : Corr κ} {D : Set ℝ} {G : ℕ → Matrix κ κ ℝ → ℝ → ℝ → Ω → ι → κ → ℝ}

/-- **C65** (Ornstein-Uhlenbeck process). The simulated values are jointly Gaussian, and their means
and covariances are those of the Euler scheme; whatever the timeline, the integration steps, the initial
time, and with parameters that may depend on time. -/
theorem C65_ou (hG : Draws P G) (hJ : GaussianDraws P G) (hD : D.OrdConnected)
    (hC : ∀ t ∈ D, (corrAt corr t).PosSemidef) (x0 : ι × κ → ℝ) (theta k sigma : ℝ → ι × κ → ℝ)
    {fuel : ℕ} {steps : Steps ℝ} {i0 : ℤ} {tl : TArr ℝ} {grid : List ℝ} {t0 : ℝ}
    (h : Along fuel steps i0 tl grid t0) (htl : ∀ u ∈ tl.data, u ∈ D) (n : ℕ) :
    ∃ (X : ℝ → Ω → ι × κ → ℝ) (m : ℕ),
      (∀ ω, (ouSDE x0 theta k sigma (noise G (corrAt corr))).call fuel steps i0 tl (ω, n) =
        .ok (tl.data.map fun t => some (X t ω), (ω, m))) ∧
      IsEulerOU P theta k sigma (corrAt corr) t0 x0 grid {u | u ∈ tl.data} X := by
  obtain ⟨h1, h2, h3⟩ := along_mem h
  have hsde : ∀ t x, (ouSDE x0 theta k sigma (noise G (corrAt corr))).sde t x =
      .ok (some [(idT, (fun t x => k t * (theta t - x)) t x), (idW, (fun t _ => sigma t) t x)]) :=
    fun _ _ => rfl
  obtain ⟨X, m, e, hX⟩ := ou_solution (S := ouSDE x0 theta k sigma (noise G (corrAt corr)))
    (theta := theta) (k := k) (sigma := sigma) hG hJ
    (fun t x t' s => step_two (S := ouSDE x0 theta k sigma (noise G (corrAt corr))) rfl hsde t x t' s)
    hD hC x0 h.isGrid.1 h2 (grid_mem h hD htl) n
  refine ⟨X, m, fun ω => ?_, hX.mono h3⟩
  rw [call_along _ (two_sources_ok rfl hsde) h]
  simp only [ouSDE, bind, Except.bind, pure, Except.pure, Bool.false_eq_true, if_false] at e ⊢
  rw [e]
  simp only [Except.ok.injEq, Prod.mk.injEq, and_true]
  apply List.map_congr_left
  intro t ht
  rw [lookup_map_self (fun u => X u ω) (h3 t ht)]
  rfl

/-- **C65** (Hull-White process). The simulated values are the sums over factors of values with the
joint law of the Euler scheme for the Ornstein-Uhlenbeck equations of the factors. -/
theorem C65_hull_white {F : ℕ} {corr : Corr (Fin F)}
    {G : ℕ → Matrix (Fin F) (Fin F) ℝ → ℝ → ℝ → Ω → ι → Fin F → ℝ}
    (hG : Draws P G) (hJ : GaussianDraws P G) (hD : D.OrdConnected)
    (hC : ∀ t ∈ D, (corrAt corr t).PosSemidef) (x0 : ι × Fin F → ℝ)
    (theta k sigma : ℝ → ι × Fin F → ℝ)
    {fuel : ℕ} {steps : Steps ℝ} {i0 : ℤ} {tl : TArr ℝ} {grid : List ℝ} {t0 : ℝ}
    (h : Along fuel steps i0 tl grid t0) (htl : ∀ u ∈ tl.data, u ∈ D) (n : ℕ) :
    ∃ (X : ℝ → Ω → ι × Fin F → ℝ) (m : ℕ),
      (∀ ω, (hullWhiteSDE x0 theta k sigma (noise G (corrAt corr))).call fuel steps i0 tl (ω, n) =
        .ok (tl.data.map fun t => some fun i => ∑ f, X t ω (i, f), (ω, m))) ∧
      IsEulerOU P theta k sigma (corrAt corr) t0 x0 grid {u | u ∈ tl.data} X := by
  obtain ⟨h1, h2, h3⟩ := along_mem h
  have hsde : ∀ t x, (hullWhiteSDE x0 theta k sigma (noise G (corrAt corr))).sde t x =
      .ok (some [(idT, (fun t x => k t * (theta t - x)) t x), (idW, (fun t _ => sigma t) t x)]) :=
    fun _ _ => rfl
  obtain ⟨X, m, e, hX⟩ := ou_solution (S := hullWhiteSDE x0 theta k sigma (noise G (corrAt corr)))
    (theta := theta) (k := k) (sigma := sigma) hG hJ
    (fun t x t' s =>
      step_two (S := hullWhiteSDE x0 theta k sigma (noise G (corrAt corr))) rfl hsde t x t' s)
    hD hC x0 h.isGrid.1 h2 (grid_mem h hD htl) n
  refine ⟨X, m, fun ω => ?_, hX.mono h3⟩
  rw [call_along _ (two_sources_ok rfl hsde) h]
  simp only [hullWhiteSDE, bind, Except.bind, pure, Except.pure, Bool.false_eq_true, if_false] at e ⊢
  rw [e]
  simp only [Except.ok.injEq, Prod.mk.injEq, and_true]
  apply List.map_congr_left
  intro t ht
  rw [lookup_map_self (fun u => X u ω) (h3 t ht)]
  rfl

end

/-! ### The limit of small steps -/

/-- The law of the sum over factors. -/
theorem Spec.IsEulerOU.sum_law {theta k sigma : ℝ → ι × κ → ℝ} {C : ℝ → Matrix κ κ ℝ} {t0 : ℝ}
    {x0 : ι × κ → ℝ} {grid : List ℝ} {D : Set ℝ} {X : ℝ → Ω → ι × κ → ℝ}
    (h : IsEulerOU P theta k sigma C t0 x0 grid D X) {t : ℝ} (ht : t ∈ D) (i : ι) (s : Finset κ) :
    HasGaussianLaw (fun ω => ∑ f ∈ s, X t ω (i, f)) P ∧
    ∫ ω, ∑ f ∈ s, X t ω (i, f) ∂P = ∑ f ∈ s, eulerMean (fun u => theta u (i, f))
      (fun u => k u (i, f)) t0 (x0 (i, f)) (stepsTo grid t0 t) ∧
    Var[fun ω => ∑ f ∈ s, X t ω (i, f); P] = ∑ a ∈ s, ∑ b ∈ s, eulerCov (fun u => k u (i, a))
      (fun u => k u (i, b)) (fun u => sigma u (i, a)) (fun u => sigma u (i, b)) (fun u => C u a b)
      t0 0 (stepsTo grid t0 t) := by
  have hl : ∀ f, HasGaussianLaw (fun ω => X t ω (i, f)) P :=
    fun f => h.gauss.hasGaussianLaw_eval (⟨t, ht⟩, i, f)
  have hg : HasGaussianLaw (fun ω => ∑ f ∈ s, X t ω (i, f)) P := by
    have := gauss_of_affSpan h.gauss (S := Unit) (Y := fun _ ω => ∑ f ∈ s, X t ω (i, f)) (fun _ => by
      have e : (fun ω => ∑ f ∈ s, X t ω (i, f)) = ∑ f ∈ s, fun ω => X t ω (i, f) := by
        funext ω; simp
      rw [e]
      exact Submodule.sum_mem _ fun f _ => affSpan_draw
        (fun (p : D × ι × κ) ω => X p.1 ω p.2) (⟨t, ht⟩, i, f))
    exact this.hasGaussianLaw_eval ()
  refine ⟨hg, ?_, ?_⟩
  · rw [integral_finsetSum _ fun f _ => (hl f).integrable]
    exact Finset.sum_congr rfl fun f _ => h.mean t ht (i, f)
  · rw [← covariance_self hg.aemeasurable,
      covariance_fun_sum_fun_sum' (fun f _ => (hl f).memLp_two) (fun f _ => (hl f).memLp_two)]
    refine Finset.sum_congr rfl fun a _ => Finset.sum_congr rfl fun b _ => ?_
    rw [h.cov t ht i i a b, if_pos rfl]

/-- Moments of the Euler scheme on grids of a given mesh. -/
theorem euler_sum_error {ξ : Type} (s : Finset ξ) (x0 theta k sigma : ξ → ℝ) (r : ξ → ξ → ℝ)
    (hk : ∀ a ∈ s, ∀ b ∈ s, k a + k b ≠ 0) (T : ℝ) (hT : 0 ≤ T) :
    ∃ B δ0 : ℝ, 0 < B ∧ 0 < δ0 ∧ ∀ (grid : List ℝ) (t0 t δ : ℝ), grid.Pairwise (· < ·) →
      0 ≤ δ → δ ≤ δ0 → Mesh grid δ → t0 ∈ grid → t ∈ grid → t0 ≤ t → t ≤ t0 + T →
      |∑ f ∈ s, eulerMean (fun _ => theta f) (fun _ => k f) t0 (x0 f) (stepsTo grid t0 t) -
        ouSumMean s x0 theta k (t - t0)| ≤ B * δ ∧
      |∑ a ∈ s, ∑ b ∈ s, eulerCov (fun _ => k a) (fun _ => k b) (fun _ => sigma a)
          (fun _ => sigma b) (fun _ => r a b) t0 0 (stepsTo grid t0 t) -
        ouSumVar s k sigma r (t - t0)| ≤ B * δ := by
  classical
  let Bm : ξ → ℝ := fun f =>
    Real.exp (|k f| * T) * (k f ^ 2 * (Real.exp (|k f| * T) * |theta f - x0 f|) * T)
  let Bv : ξ → ξ → ℝ := fun a b => Real.exp ((|k a| + |k b|) * T) *
    (((|k a * k b| + (k a + k b) ^ 2) * (|sigma a * sigma b * r a b / (k a + k b)| *
      (1 + Real.exp (|k a + k b| * T))) +
        |sigma a * sigma b * r a b / (k a + k b)| * (k a + k b) ^ 2) * T)
  have hBm : ∀ f, 0 ≤ Bm f := fun f => by positivity
  have hBv : ∀ a b, 0 ≤ Bv a b := fun a b => by positivity
  let A : ℝ := 1 + ∑ a ∈ s, |k a|
  have hA0 : ∀ a ∈ s, |k a| ≤ A := fun a ha => by
    have := Finset.single_le_sum (fun b _ => abs_nonneg (k b)) ha
    simp only [A]
    linarith
  have hApos : 0 < A := by
    have : 0 ≤ ∑ a ∈ s, |k a| := Finset.sum_nonneg fun _ _ => abs_nonneg _
    simp only [A]
    linarith
  refine ⟨1 + ∑ f ∈ s, Bm f + ∑ a ∈ s, ∑ b ∈ s, Bv a b, 1 / (2 * A), ?_, by positivity, ?_⟩
  · have h1 := Finset.sum_nonneg (s := s) fun f _ => hBm f
    have h2 := Finset.sum_nonneg (s := s) fun a _ => Finset.sum_nonneg (s := s) fun b _ => hBv a b
    linarith
  · intro grid t0 t δ hg h0 hδ hm ht0 ht hle hT'
    obtain ⟨hc, hb, hlast⟩ := stepsTo_chain hg hm ht0 ht hle
    have hb' : ∀ u ∈ t0 :: stepsTo grid t0 t, u ≤ t0 + T := fun u hu => (hb u hu).trans hT'
    have hδA : A * δ ≤ 1 / 2 := by
      calc A * δ ≤ A * (1 / (2 * A)) := by gcongr
        _ = 1 / 2 := by field_simp
    have hT1 : t - t0 ≤ T := by linarith
    have hT0 : 0 ≤ t - t0 := by linarith
    have h1 := Finset.sum_nonneg (s := s) fun f _ => hBm f
    have h2 := Finset.sum_nonneg (s := s) fun a _ => Finset.sum_nonneg (s := s) fun b _ => hBv a b
    constructor
    · rw [ouSumMean, ← Finset.sum_sub_distrib]
      refine (Finset.abs_sum_le_sum_abs _ _).trans ?_
      calc _ ≤ ∑ f ∈ s, Bm f * δ := by
            refine Finset.sum_le_sum fun f hf => ?_
            refine (eulerMean_error (theta f) (k f) (x0 f) h0 ?_ hc hb' hlast).trans ?_
            · have := mul_le_mul_of_nonneg_right (hA0 f hf) h0
              linarith
            · calc _ ≤ Real.exp (|k f| * T) *
                    (k f ^ 2 * (Real.exp (|k f| * T) * |theta f - x0 f|) * δ * T) := by gcongr
                _ = _ := by simp only [Bm]; ring
        _ = (∑ f ∈ s, Bm f) * δ := by rw [Finset.sum_mul]
        _ ≤ _ := by
            refine mul_le_mul_of_nonneg_right ?_ h0
            linarith
    · rw [ouSumVar, ← Finset.sum_sub_distrib]
      refine (Finset.abs_sum_le_sum_abs _ _).trans ?_
      calc _ ≤ ∑ a ∈ s, ∑ b ∈ s, Bv a b * δ := by
            refine Finset.sum_le_sum fun a ha => ?_
            rw [← Finset.sum_sub_distrib]
            refine (Finset.abs_sum_le_sum_abs _ _).trans (Finset.sum_le_sum fun b hb2 => ?_)
            refine (eulerCov_error (k a) (k b) (sigma a) (sigma b) (r a b) (hk a ha b hb2) h0 ?_ hc
              hb' hlast).trans ?_
            · have e1 := mul_le_mul_of_nonneg_right (hA0 a ha) h0
              have e2 := mul_le_mul_of_nonneg_right (hA0 b hb2) h0
              have e3 := mul_le_mul_of_nonneg_right (abs_add_le (k a) (k b)) h0
              rw [add_mul] at e3
              linarith
            · calc _ ≤ Real.exp ((|k a| + |k b|) * T) *
                    (((|k a * k b| + (k a + k b) ^ 2) * (|sigma a * sigma b * r a b / (k a + k b)| *
                    (1 + Real.exp (|k a + k b| * T))) +
                    |sigma a * sigma b * r a b / (k a + k b)| * (k a + k b) ^ 2) * δ * T) := by gcongr
                _ = _ := by simp only [Bv]; ring
        _ = (∑ a ∈ s, ∑ b ∈ s, Bv a b) * δ := by simp only [Finset.sum_mul]
        _ ≤ _ := by
            refine mul_le_mul_of_nonneg_right ?_ h0
            linarith

/-- Normal distribution functions depend continuously on mean and variance. -/
theorem gaussian_cdf_near (x m0 : ℝ) {v0 : ℝ} (hv : 0 < v0) {ε : ℝ} (hε : 0 < ε) :
    ∃ η > 0, ∀ m v : ℝ, |m - m0| ≤ η → |v - v0| ≤ η →
      |(gaussianReal m v.toNNReal).real (Set.Iic x) - normCdf ((x - m0) / √v0)| ≤ ε := by
  have hcont : ContinuousAt (fun p : ℝ × ℝ => normCdf ((x - p.1) / √p.2)) (m0, v0) := by
    refine continuous_normCdf.continuousAt.comp ?_
    refine ContinuousAt.div (by fun_prop) (by fun_prop) ?_
    exact (Real.sqrt_pos.2 hv).ne'
  obtain ⟨η, hη, h⟩ := Metric.continuousAt_iff.1 hcont ε hε
  refine ⟨min (η / 2) (v0 / 2), by positivity, fun m v h1 h2 => ?_⟩
  have hv' : 0 < v := by
    have := (abs_le.1 (h2.trans (min_le_right _ _))).1
    linarith
  have hd : dist (m, v) (m0, v0) < η := by
    rw [Prod.dist_eq, max_lt_iff, Real.dist_eq, Real.dist_eq]
    have e1 := h1.trans (min_le_left _ _)
    have e2 := h2.trans (min_le_left _ _)
    constructor <;> linarith
  have h3 := h hd
  rw [Real.dist_eq] at h3
  have h4 := (normal_describe m (Real.sqrt_pos.2 hv')).cdf_eq x
  rw [Real.sq_sqrt hv'.le, scipyNormCdf, if_pos (Real.sqrt_pos.2 hv'), Option.some.injEq] at h4
  rw [← h4]
  exact h3.le

/-- The limit in distribution of normal variables with converging moments. -/
theorem gaussianLaw_cdf_near (x m0 : ℝ) {v0 : ℝ} (hv : 0 < v0) {ε : ℝ} (hε : 0 < ε) :
    ∃ η > 0, ∀ (Ω : Type) [MeasurableSpace Ω] (P : Measure Ω) [IsProbabilityMeasure P] (Y : Ω → ℝ),
      HasGaussianLaw Y P → |∫ ω, Y ω ∂P - m0| ≤ η → |Var[Y; P] - v0| ≤ η →
      |P.real {ω | Y ω ≤ x} - normCdf ((x - m0) / √v0)| ≤ ε := by
  obtain ⟨η, hη, h⟩ := gaussian_cdf_near x m0 hv hε
  refine ⟨η, hη, fun Ω _ P _ Y hY h1 h2 => ?_⟩
  have := h _ _ h1 h2
  rw [← hY.map_eq_gaussianReal, map_measureReal_apply_of_aemeasurable hY.aemeasurable
    measurableSet_Iic] at this
  exact this

/-- **C65** (Ornstein-Uhlenbeck process, order of convergence). With constant parameters, mean and
variance of the values simulated with steps no longer than `δ` are those given by `oruh_mean` and `oruh_var` up to
an error proportional to `δ`: the same for all timelines, steps, initial times, and up to any time `T`
after the initial one. -/
theorem C65_ou_order (x0 theta k sigma : ι × κ → ℝ) (c : ι × κ) (hk : k c ≠ 0) {T : ℝ} (hT : 0 ≤ T) :
    ∃ B δ0 : ℝ, 0 < B ∧ 0 < δ0 ∧ ∀ (Ω : Type) [MeasurableSpace Ω] (P : Measure Ω)
      [IsProbabilityMeasure P] (G : ℕ → Matrix κ κ ℝ → ℝ → ℝ → Ω → ι → κ → ℝ) (corr : Corr κ)
      (fuel : ℕ) (steps : Steps ℝ) (i0 : ℤ) (tl : TArr ℝ) (grid : List ℝ) (t0 δ : ℝ) (n : ℕ),
      Draws P G → GaussianDraws P G → (∀ u, (corrAt corr u).PosSemidef) →
      (∀ u, corrAt corr u c.2 c.2 = 1) →
      Along fuel steps i0 tl grid t0 → Mesh grid δ → 0 ≤ δ → δ ≤ δ0 →
      ∃ (X : ℝ → Ω → ι × κ → ℝ) (m : ℕ),
        (∀ ω, (ouSDE x0 (fun _ => theta) (fun _ => k) (fun _ => sigma) (noise G (corrAt corr))).call
            fuel steps i0 tl (ω, n) = .ok (tl.data.map fun t => some (X t ω), (ω, m))) ∧
        ∀ t ∈ tl.data, t0 ≤ t → t ≤ t0 + T → HasGaussianLaw (fun ω => X t ω c) P ∧
          |∫ ω, X t ω c ∂P - oruhMean (x0 c) (theta c) (k c) (sigma c) (t - t0)| ≤ B * δ ∧
          |Var[fun ω => X t ω c; P] - oruhVar (x0 c) (theta c) (k c) (sigma c) (t - t0)| ≤ B * δ := by
  obtain ⟨B, δ0, hB, hδ0, he⟩ := euler_sum_error {()} (fun _ => x0 c) (fun _ => theta c)
    (fun _ => k c) (fun _ => sigma c) (fun _ _ => 1)
    (fun _ _ _ _ h => hk (by linarith)) T hT
  refine ⟨B, δ0, hB, hδ0, ?_⟩
  intro Ω _ P _ G corr fuel steps i0 tl grid t0 δ n hG hJ hC hone h hm h0 hδ
  obtain ⟨X, m, e, hX⟩ := C65_ou (D := Set.univ) hG hJ Set.ordConnected_univ (fun u _ => hC u) x0
    (fun _ => theta) (fun _ => k) (fun _ => sigma) h (fun _ _ => trivial) n
  obtain ⟨h1, h2, h3⟩ := along_mem h
  refine ⟨X, m, e, fun t ht hle hT' => ?_⟩
  obtain ⟨l1, l2, l3⟩ := hX.sum_law ht c.1 {c.2}
  obtain ⟨e1, e2⟩ := he grid t0 t δ h.isGrid.1 h0 hδ hm h2 (h3 t ht) hle hT'
  simp only [Finset.sum_singleton, Prod.mk.eta, hone] at l1 l2 l3 e1 e2
  refine ⟨l1, ?_, ?_⟩
  · rw [l2]
    simpa [ouSumMean, oruhMean] using e1
  · rw [l3]
    have : ouSumVar {()} (fun _ => k c) (fun _ => sigma c) (fun _ _ => 1) (t - t0) =
        oruhVar (x0 c) (theta c) (k c) (sigma c) (t - t0) := by
      simp only [ouSumVar, oruhVar, Finset.sum_singleton, mul_one]
      congr 2
      · ring
      · congr 2; ring
    rw [← this]
    exact e2

theorem oruhVar_pos (x0 theta : ℝ) {k sigma t : ℝ} (hk : k ≠ 0) (hs : sigma ≠ 0) (ht : 0 < t) :
    0 < oruhVar x0 theta k sigma t := by
  unfold oruhVar
  have h2 : 0 < sigma * sigma := mul_self_pos.2 hs
  have h3 : 0 < 1 / (2 * k) * (1 - Real.exp (-2 * k * t)) := by
    rcases lt_or_gt_of_ne hk with hk | hk
    · have : 1 < Real.exp (-2 * k * t) := by rw [Real.one_lt_exp_iff]; nlinarith
      exact mul_pos_of_neg_of_neg (one_div_neg.2 (by linarith)) (by linarith)
    · have : Real.exp (-2 * k * t) < 1 := by rw [Real.exp_lt_one_iff]; nlinarith
      exact mul_pos (by positivity) (by linarith)
  have := mul_pos h2 h3
  calc 0 < _ := this
    _ = _ := by ring

/-- **C65** (Ornstein-Uhlenbeck process, limit). As steps get shorter, the distribution of the values
simulated at a time `T` after the initial one converges to `oruh_cdf`. -/
theorem C65_ou_limit (x0 theta k sigma : ι × κ → ℝ) (c : ι × κ) (hk : k c ≠ 0) (hs : sigma c ≠ 0)
    {T : ℝ} (hT : 0 < T) (x : ℝ) {ε : ℝ} (hε : 0 < ε) :
    ∃ δ > 0, ∀ (Ω : Type) [MeasurableSpace Ω] (P : Measure Ω)
      [IsProbabilityMeasure P] (G : ℕ → Matrix κ κ ℝ → ℝ → ℝ → Ω → ι → κ → ℝ) (corr : Corr κ)
      (fuel : ℕ) (steps : Steps ℝ) (i0 : ℤ) (tl : TArr ℝ) (grid : List ℝ) (t0 : ℝ) (n : ℕ),
      Draws P G → GaussianDraws P G → (∀ u, (corrAt corr u).PosSemidef) →
      (∀ u, corrAt corr u c.2 c.2 = 1) →
      Along fuel steps i0 tl grid t0 → Mesh grid δ → t0 + T ∈ tl.data →
      ∃ (X : ℝ → Ω → ι × κ → ℝ) (m : ℕ) (y : ℝ),
        (∀ ω, (ouSDE x0 (fun _ => theta) (fun _ => k) (fun _ => sigma) (noise G (corrAt corr))).call
            fuel steps i0 tl (ω, n) = .ok (tl.data.map fun t => some (X t ω), (ω, m))) ∧
        oruhCdf (x0 c) (theta c) (k c) (sigma c) T x = some y ∧
        |P.real {ω | X (t0 + T) ω c ≤ x} - y| ≤ ε := by
  have hv := oruhVar_pos (x0 c) (theta c) hk hs hT
  obtain ⟨η, hη, hnear⟩ := gaussianLaw_cdf_near x (oruhMean (x0 c) (theta c) (k c) (sigma c) T) hv hε
  obtain ⟨B, δ0, hB, hδ0, h⟩ := C65_ou_order x0 theta k sigma c hk hT.le
  have hpos : 0 < min δ0 (η / B) := lt_min hδ0 (by positivity)
  refine ⟨min δ0 (η / B), hpos, ?_⟩
  intro Ω _ P _ G corr fuel steps i0 tl grid t0 n hG hJ hC hone ha hm ht
  obtain ⟨X, m, e, hX⟩ := h Ω P G corr fuel steps i0 tl grid t0 _ n hG hJ hC hone ha hm hpos.le
    (min_le_left _ _)
  obtain ⟨l1, l2, l3⟩ := hX (t0 + T) ht (by linarith) le_rfl
  have hη' : B * min δ0 (η / B) ≤ η := by
    calc B * min δ0 (η / B) ≤ B * (η / B) := by gcongr; exact min_le_right _ _
      _ = η := by field_simp
  rw [add_sub_cancel_left] at l2 l3
  refine ⟨X, m, _, e, ?_, hnear Ω P _ l1 (l2.trans hη') (l3.trans hη')⟩
  rw [oruhCdf, scipyNormCdf, if_pos (Real.sqrt_pos.2 hv)]

/-- **C65** (number of steps). With `n` integration steps, no step is longer than the span of the
timeline divided by `n - 1`. -/
theorem C65_mesh {fuel n : ℕ} (hn : 2 ≤ n) {i0 : ℤ} {tl : TArr ℝ} {grid : List ℝ} {t0 : ℝ}
    (h : Along fuel (.int n) i0 tl grid t0) {a b : ℝ} (ha : tl.data.head? = some a)
    (hb : tl.data.getLast? = some b) : Mesh grid ((b - a) / (n - 1)) := by
  refine mesh_int hn h.isGrid ?_ ha hb
  have hp := h.valid.2
  intro t ht
  constructor
  · cases hl : tl.data with
    | nil => rw [hl] at ht; simp at ht
    | cons x l =>
      rw [hl] at ha ht hp
      simp only [List.head?_cons, Option.some.injEq] at ha
      subst ha
      rcases List.mem_cons.1 ht with rfl | ht
      · exact le_rfl
      · exact ((List.pairwise_cons.1 hp).1 t ht).le
  · obtain ⟨l1, hl1⟩ := List.getLast?_eq_some_iff.1 hb
    rw [hl1] at ht hp
    rcases List.mem_append.1 ht with ht | ht
    · exact ((List.pairwise_append.1 hp).2.2 t ht b (by simp)).le
    · simp at ht; exact ht.le

/-- **C65** (Ornstein-Uhlenbeck process, limit of many steps). On a given timeline, as the number of
steps increases, the distribution of the values simulated converges to `oruh_cdf`. -/
theorem C65_ou_steps (x0 theta k sigma : ι × κ → ℝ) (c : ι × κ) (hk : k c ≠ 0) (hs : sigma c ≠ 0)
    (tl : TArr ℝ) {t0 T : ℝ} (hT : 0 < T) (ht : t0 + T ∈ tl.data) (x : ℝ) {ε : ℝ} (hε : 0 < ε) :
    ∃ N0 : ℕ, ∀ (Ω : Type) [MeasurableSpace Ω] (P : Measure Ω)
      [IsProbabilityMeasure P] (G : ℕ → Matrix κ κ ℝ → ℝ → ℝ → Ω → ι → κ → ℝ) (corr : Corr κ)
      (fuel : ℕ) (i0 : ℤ) (grid : List ℝ) (n N : ℕ), N0 ≤ N →
      Draws P G → GaussianDraws P G → (∀ u, (corrAt corr u).PosSemidef) →
      (∀ u, corrAt corr u c.2 c.2 = 1) → Along fuel (.int N) i0 tl grid t0 →
      ∃ (X : ℝ → Ω → ι × κ → ℝ) (m : ℕ) (y : ℝ),
        (∀ ω, (ouSDE x0 (fun _ => theta) (fun _ => k) (fun _ => sigma) (noise G (corrAt corr))).call
            fuel (.int N) i0 tl (ω, n) = .ok (tl.data.map fun t => some (X t ω), (ω, m))) ∧
        oruhCdf (x0 c) (theta c) (k c) (sigma c) T x = some y ∧
        |P.real {ω | X (t0 + T) ω c ≤ x} - y| ≤ ε := by
  obtain ⟨δ, hδ, h⟩ := C65_ou_limit x0 theta k sigma c hk hs hT x hε
  have hne : tl.data ≠ [] := List.ne_nil_of_mem ht
  obtain ⟨a, ha⟩ : ∃ a, tl.data.head? = some a := ⟨_, List.head?_eq_some_head hne⟩
  obtain ⟨b, hb⟩ : ∃ b, tl.data.getLast? = some b := ⟨_, List.getLast?_eq_some_getLast hne⟩
  refine ⟨⌈|b - a| / δ⌉₊ + 2, ?_⟩
  intro Ω _ P _ G corr fuel i0 grid n N hN hG hJ hC hone hal
  refine h Ω P G corr fuel (.int N) i0 tl grid t0 n hG hJ hC hone hal ?_ ht
  have hm := C65_mesh (by omega) hal ha hb
  intro u hu v hv huv hno
  refine (hm u hu v hv huv hno).trans ?_
  have h1 : |b - a| / δ + 1 ≤ (N : ℝ) - 1 := by
    have h2 := Nat.le_ceil (|b - a| / δ)
    have h3 : ((⌈|b - a| / δ⌉₊ + 2 : ℕ) : ℝ) ≤ N := by exact_mod_cast hN
    push_cast at h3
    linarith
  have h0 : 0 ≤ |b - a| / δ := by positivity
  rw [div_le_iff₀ (by linarith)]
  have h4 : |b - a| ≤ δ * ((N : ℝ) - 1) := by
    have := (div_le_iff₀ hδ).1 (show |b - a| / δ ≤ (N : ℝ) - 1 by linarith)
    linarith
  exact (le_abs_self _).trans h4

/-- **C65** (Hull-White process, order of convergence). With constant parameters and correlations, mean
and variance of the values simulated with steps no longer than `δ` are those of the sum of correlated
Ornstein-Uhlenbeck processes, up to an error proportional to `δ`. -/
theorem C65_hw_order {F : ℕ} (x0 theta k sigma : ι × Fin F → ℝ) (C : Matrix (Fin F) (Fin F) ℝ)
    (hC : C.PosSemidef) (i : ι) (hk : ∀ a b, k (i, a) + k (i, b) ≠ 0) {T : ℝ} (hT : 0 ≤ T) :
    ∃ B δ0 : ℝ, 0 < B ∧ 0 < δ0 ∧ ∀ (Ω : Type) [MeasurableSpace Ω] (P : Measure Ω)
      [IsProbabilityMeasure P] (G : ℕ → Matrix (Fin F) (Fin F) ℝ → ℝ → ℝ → Ω → ι → Fin F → ℝ)
      (fuel : ℕ) (steps : Steps ℝ) (i0 : ℤ) (tl : TArr ℝ) (grid : List ℝ) (t0 δ : ℝ) (n : ℕ),
      Draws P G → GaussianDraws P G →
      Along fuel steps i0 tl grid t0 → Mesh grid δ → 0 ≤ δ → δ ≤ δ0 →
      ∃ (Y : ℝ → Ω → ι → ℝ) (m : ℕ),
        (∀ ω, (hullWhiteSDE x0 (fun _ => theta) (fun _ => k) (fun _ => sigma)
            (noise G (corrAt (.const C)))).call fuel steps i0 tl (ω, n) =
          .ok (tl.data.map fun t => some (Y t ω), (ω, m))) ∧
        ∀ t ∈ tl.data, t0 ≤ t → t ≤ t0 + T → HasGaussianLaw (fun ω => Y t ω i) P ∧
          |∫ ω, Y t ω i ∂P - ouSumMean Finset.univ (fun f => x0 (i, f)) (fun f => theta (i, f))
            (fun f => k (i, f)) (t - t0)| ≤ B * δ ∧
          |Var[fun ω => Y t ω i; P] - ouSumVar Finset.univ (fun f => k (i, f))
            (fun f => sigma (i, f)) C (t - t0)| ≤ B * δ := by
  obtain ⟨B, δ0, hB, hδ0, he⟩ := euler_sum_error Finset.univ (fun f => x0 (i, f))
    (fun f => theta (i, f)) (fun f => k (i, f)) (fun f => sigma (i, f)) C
    (fun a _ b _ => hk a b) T hT
  refine ⟨B, δ0, hB, hδ0, ?_⟩
  intro Ω _ P _ G fuel steps i0 tl grid t0 δ n hG hJ h hm h0 hδ
  obtain ⟨X, m, e, hX⟩ := C65_hull_white (D := Set.univ) (corr := .const C) hG hJ
    Set.ordConnected_univ (fun u _ => hC) x0
    (fun _ => theta) (fun _ => k) (fun _ => sigma) h (fun _ _ => trivial) n
  obtain ⟨h1, h2, h3⟩ := along_mem h
  refine ⟨fun t ω i => ∑ f, X t ω (i, f), m, e, fun t ht hle hT' => ?_⟩
  obtain ⟨l1, l2, l3⟩ := hX.sum_law ht i Finset.univ
  obtain ⟨e1, e2⟩ := he grid t0 t δ h.isGrid.1 h0 hδ hm h2 (h3 t ht) hle hT'
  exact ⟨l1, by rw [l2]; exact e1, by rw [l3]; exact e2⟩

theorem hw2f_sum (x0 theta k sigma : Fin 2 → ℝ) (rho t : ℝ) :
    ouSumMean Finset.univ x0 theta k t =
      hw2fMean (x0 0) (x0 1) (theta 0) (theta 1) (k 0) (k 1) (sigma 0) (sigma 1) rho t ∧
    ouSumVar Finset.univ k sigma !![1, rho; rho, 1] t =
      hw2fVar (x0 0) (x0 1) (theta 0) (theta 1) (k 0) (k 1) (sigma 0) (sigma 1) rho t := by
  constructor
  · simp only [ouSumMean, Fin.sum_univ_two, hw2fMean]; ring
  · simp only [ouSumVar, Fin.sum_univ_two, hw2fVar]
    simp only [Matrix.of_apply, Matrix.cons_val', Matrix.cons_val_zero, Matrix.cons_val_one,
      Matrix.cons_val_fin_one, mul_one]
    rw [show -(k 0 + k 0) * t = -2 * k 0 * t by ring, show -(k 1 + k 1) * t = -2 * k 1 * t by ring,
      show -(k 1 + k 0) * t = -(k 0 + k 1) * t by ring, show k 0 + k 0 = 2 * k 0 by ring,
      show k 1 + k 1 = 2 * k 1 by ring, show k 1 + k 0 = k 0 + k 1 by ring]
    ring

theorem corr2_posSemidef {rho : ℝ} (h : |rho| ≤ 1) :
    (!![1, rho; rho, 1] : Matrix (Fin 2) (Fin 2) ℝ).PosSemidef := by
  refine Matrix.PosSemidef.of_dotProduct_mulVec_nonneg ?_ ?_
  · ext i j; fin_cases i <;> fin_cases j <;> simp [Matrix.conjTranspose]
  · intro x
    simp [Matrix.mulVec, dotProduct, Fin.sum_univ_two]
    have h2 : rho ^ 2 ≤ 1 := by rw [← sq_abs]; nlinarith [abs_nonneg rho]
    nlinarith [sq_nonneg (x 0 + rho * x 1), mul_nonneg (sub_nonneg.2 h2) (sq_nonneg (x 1))]

/-- **C65** (Hull-White process with two factors, limit). As steps get shorter, the distribution of the
values simulated at a time `T` after the initial one converges to `hw2f_cdf`. -/
theorem C65_hw2f_limit (x0 theta k sigma : ι × Fin 2 → ℝ) {rho : ℝ} (hr : |rho| ≤ 1) (i : ι)
    (hk : ∀ a b, k (i, a) + k (i, b) ≠ 0) {T : ℝ} (hT : 0 < T)
    (hv : 0 < hw2fVar (x0 (i, 0)) (x0 (i, 1)) (theta (i, 0)) (theta (i, 1)) (k (i, 0)) (k (i, 1))
      (sigma (i, 0)) (sigma (i, 1)) rho T) (x : ℝ) {ε : ℝ} (hε : 0 < ε) :
    ∃ δ > 0, ∀ (Ω : Type) [MeasurableSpace Ω] (P : Measure Ω)
      [IsProbabilityMeasure P] (G : ℕ → Matrix (Fin 2) (Fin 2) ℝ → ℝ → ℝ → Ω → ι → Fin 2 → ℝ)
      (fuel : ℕ) (steps : Steps ℝ) (i0 : ℤ) (tl : TArr ℝ) (grid : List ℝ) (t0 : ℝ) (n : ℕ),
      Draws P G → GaussianDraws P G →
      Along fuel steps i0 tl grid t0 → Mesh grid δ → t0 + T ∈ tl.data →
      ∃ (Y : ℝ → Ω → ι → ℝ) (m : ℕ) (y : ℝ),
        (∀ ω, (hullWhiteSDE x0 (fun _ => theta) (fun _ => k) (fun _ => sigma)
            (noise G (corrAt (.const !![1, rho; rho, 1])))).call fuel steps i0 tl (ω, n) =
          .ok (tl.data.map fun t => some (Y t ω), (ω, m))) ∧
        hw2fCdf (x0 (i, 0)) (x0 (i, 1)) (theta (i, 0)) (theta (i, 1)) (k (i, 0)) (k (i, 1))
          (sigma (i, 0)) (sigma (i, 1)) rho T x = some y ∧
        |P.real {ω | Y (t0 + T) ω i ≤ x} - y| ≤ ε := by
  obtain ⟨hm1, hv1⟩ := hw2f_sum (fun f => x0 (i, f)) (fun f => theta (i, f)) (fun f => k (i, f))
    (fun f => sigma (i, f)) rho T
  obtain ⟨η, hη, hnear⟩ := gaussianLaw_cdf_near x (hw2fMean (x0 (i, 0)) (x0 (i, 1)) (theta (i, 0))
    (theta (i, 1)) (k (i, 0)) (k (i, 1)) (sigma (i, 0)) (sigma (i, 1)) rho T) hv hε
  obtain ⟨B, δ0, hB, hδ0, h⟩ := C65_hw_order x0 theta k sigma _ (corr2_posSemidef hr) i hk hT.le
  have hpos : 0 < min δ0 (η / B) := lt_min hδ0 (by positivity)
  refine ⟨min δ0 (η / B), hpos, ?_⟩
  intro Ω _ P _ G fuel steps i0 tl grid t0 n hG hJ ha hm ht
  obtain ⟨X, m, e, hX⟩ := h Ω P G fuel steps i0 tl grid t0 _ n hG hJ ha hm hpos.le
    (min_le_left _ _)
  obtain ⟨l1, l2, l3⟩ := hX (t0 + T) ht (by linarith) le_rfl
  have hη' : B * min δ0 (η / B) ≤ η := by
    calc B * min δ0 (η / B) ≤ B * (η / B) := by gcongr; exact min_le_right _ _
      _ = η := by field_simp
  rw [add_sub_cancel_left] at l2 l3
  rw [hm1] at l2
  rw [hv1] at l3
  refine ⟨X, m, _, e, ?_, hnear Ω P _ l1 (l2.trans hη') (l3.trans hη')⟩
  rw [hw2fCdf, scipyNormCdf, if_pos (Real.sqrt_pos.2 hv)]

/-! ### The hypotheses can be met -/

theorem along_of_valid {steps : Steps ℝ} {i0 : ℤ} {tl : TArr ℝ} (hv : ValidTimeline tl)
    {i : ℕ} (hi : Designates tl.data.length i0 i) {t0 : ℝ} (h0 : tl.data[i]? = some t0)
    (hst : ∀ n : ℤ, steps = .int n → 0 ≤ n) : ∃ fuel grid, Along fuel steps i0 tl grid t0 := by
  obtain ⟨_, _, grid, -, -, -, hg⟩ := validCall_setup hv ⟨i, hi⟩ hst
  exact ⟨grid.length, grid, hv, ⟨i, hi, h0⟩, hst, hg, le_rfl⟩

/-- The distribution of values simulated with many steps is close to `oruh_cdf`. -/
example : ∃ (Ω : Type) (_ : MeasurableSpace Ω) (P : Measure Ω) (rng : Rng (Ω × ℕ)) (N fuel : ℕ)
    (X : ℝ → Ω → List ℕ × Unit → ℝ) (m : ℕ) (y : ℝ),
    (∀ ω, (ouSDE (fun _ => 10) (fun _ _ => 5) (fun _ _ => 2) (fun _ _ => 1 / 3)
        (plainNoise 5 [] rng)).call fuel (.int N) 0 ⟨[2], [1, 2]⟩ (ω, 0) =
          .ok ([some (X 1 ω), some (X 2 ω)], (ω, m))) ∧
    oruhCdf 10 5 2 (1 / 3) 1 6 = some y ∧ |P.real {ω | X 2 ω ([3], ()) ≤ 6} - y| ≤ 1 / 1000 := by
  obtain ⟨Ω, mΩ, P, N0, N, hP, h0, -, hN, hJ0, hJ⟩ := exists_rng
  obtain ⟨G, hG, hGJ, e⟩ := C64_source_plain (P := P) (N := N) 5 [] h0 hJ0
  obtain ⟨n, h⟩ := C65_ou_steps (ι := List ℕ) (κ := Unit) (fun _ => 10) (fun _ => 5) (fun _ => 2)
    (fun _ => 1 / 3) ([3], ()) (by norm_num) (by norm_num) ⟨[2], [1, 2]⟩ (t0 := 1) (T := 1) one_pos
    (by norm_num) 6 (ε := 1 / 1000) (by norm_num)
  obtain ⟨fuel, grid, hal⟩ := along_of_valid (steps := .int n) (i0 := 0) (tl := ⟨[2], [1, 2]⟩)
    (i := 0) (t0 := 1) ⟨rfl, by simp⟩ ⟨by simp, .inl rfl⟩ rfl (by rintro _ ⟨⟩; simp)
  obtain ⟨X, m, y, h1, h2, h3⟩ := h Ω P G .none fuel 0 grid 0 n le_rfl hG hGJ
    (fun _ => Matrix.PosSemidef.one) (fun u => by simp [corrAt]) hal
  rw [← e] at h1
  exact ⟨Ω, mΩ, P, seededRng N0 N, n, fuel, X, m, y, h1, h2, by norm_num at h3 ⊢; exact h3⟩

/-- Two factors with correlation -1/2, and negative mean reversion of one of them. -/
example : ∃ (Ω : Type) (_ : MeasurableSpace Ω) (P : Measure Ω) (rng : Rng (Ω × ℕ)) (δ : ℝ),
    0 < δ ∧ ∀ (fuel : ℕ) (grid : List ℝ) (l : List ℝ), Along fuel (.iter l) 0 ⟨[2], [1, 2]⟩ grid 1 →
      Mesh grid δ → ∃ (Y : ℝ → Ω → List ℕ × ℕ → ℝ) (m : ℕ) (y : ℝ),
    (∀ ω, (hullWhiteSDE (F := 2) (fun _ => 10) (fun _ _ => 5) (fun _ c => if c.2 = 0 then 2 else -1)
        (fun _ _ => 1 / 3) (wienerNoise 5 [] (.arr (ofMatrix !![1, -1 / 2; -1 / 2, 1])) rng)).call
          fuel (.iter l) 0 ⟨[2], [1, 2]⟩ (ω, 0) = .ok ([some (Y 1 ω), some (Y 2 ω)], (ω, m))) ∧
    hw2fCdf 10 10 5 5 2 (-1) (1 / 3) (1 / 3) (-1 / 2) 1 17 = some y ∧
      |P.real {ω | Y 2 ω ([], 3) ≤ 17} - y| ≤ 1 / 1000 := by
  obtain ⟨Ω, mΩ, P, N0, N, hP, h0, -, hN, hJ0, hJ⟩ := exists_rng
  obtain ⟨G, hG, hGJ, e⟩ := C64_source (P := P) 5 [] (hN 2) h0 (hJ 2) hJ0
    (.const !![1, -1 / 2; -1 / 2, 1]) none
  obtain ⟨δ, hδ, h⟩ := C65_hw2f_limit (ι := List ℕ × ℕ) (fun _ => 10) (fun _ => 5)
    (fun c => if c.2 = 0 then 2 else -1) (fun _ => 1 / 3) (rho := -1 / 2)
    (by rw [abs_le]; norm_num) ([], 3)
    (by intro a b; fin_cases a <;> fin_cases b <;> norm_num) (T := 1) one_pos (by
      have h1 : Real.exp 2 > 1 := by rw [gt_iff_lt, Real.one_lt_exp_iff]; norm_num
      have h2 : Real.exp (-1) < 1 := by rw [Real.exp_lt_one_iff]; norm_num
      have h3 : Real.exp (-4) < 1 := by rw [Real.exp_lt_one_iff]; norm_num
      have h4 : Real.exp (-1) > 0 := Real.exp_pos _
      have h5 : Real.exp 2 ≥ 3 := by have := Real.add_one_le_exp (2 : ℝ); linarith
      simp only [hw2fVar]
      norm_num
      linarith) 17 (ε := 1 / 1000) (by norm_num)
  refine ⟨Ω, mΩ, P, seededRng N0 N, δ, hδ, fun fuel grid l hal hm => ?_⟩
  obtain ⟨Y, m, y, h1, h2, h3⟩ := h Ω P G fuel (.iter l) 0 ⟨[2], [1, 2]⟩ grid 1 0 hG hGJ hal hm
    (by norm_num)
  rw [← e] at h1
  refine ⟨Y, m, y, h1, ?_, ?_⟩
  · simpa using h2
  · norm_num at h3 ⊢; exact h3

/-- Parameters that depend on time: mean and variance at `t = 2`, after one step. -/
example : ∃ (Ω : Type) (_ : MeasurableSpace Ω) (P : Measure Ω) (rng : Rng (Ω × ℕ))
    (X : ℝ → Ω → List ℕ × Unit → ℝ) (m : ℕ),
    (∀ ω, (ouSDE (fun _ => 10) (fun t _ => 5 * t) (fun t _ => t / 2) (fun t _ => 3 * t)
        (plainNoise 5 [] rng)).call 10 .none 0 ⟨[2], [1, 2]⟩ (ω, 0) =
          .ok ([some (X 1 ω), some (X 2 ω)], (ω, m))) ∧
    ∫ ω, X 2 ω ([3], ()) ∂P = 15 / 2 ∧
    cov[fun ω => X 2 ω ([3], ()), fun ω => X 2 ω ([3], ()); P] = 9 := by
  obtain ⟨Ω, mΩ, P, N0, N, hP, h0, -, hN, hJ0, hJ⟩ := exists_rng
  obtain ⟨G, hG, hGJ, e⟩ := C64_source_plain (P := P) (N := N) 5 [] h0 hJ0
  obtain ⟨X, m, h1, h2⟩ := C65_ou (P := P) (corr := .none) (D := Set.univ) hG hGJ
    Set.ordConnected_univ (fun _ _ => Matrix.PosSemidef.one) (fun _ => 10) (fun t _ => 5 * t)
    (fun t _ => t / 2) (fun t _ => 3 * t) exAlongR (fun _ _ => trivial) 0
  rw [← e] at h1
  have hst : stepsTo [1, 2] 1 2 = [2] := by
    rw [stepsTo, if_pos (by norm_num)]
    simp
  refine ⟨Ω, mΩ, P, seededRng N0 N, X, m, h1, ?_, ?_⟩
  · rw [h2.mean 2 (by simp) _, hst]
    simp only [eulerMean]
    norm_num
  · rw [h2.cov 2 (by simp) [3] [3] () (), hst]
    simp only [eulerCov, corrAt]
    norm_num

/-- The mesh with 5 steps on a timeline of length 1. -/
example {fuel : ℕ} {grid : List ℝ} (h : Along fuel (.int (5 : ℕ)) 0 ⟨[2], [1, 2]⟩ grid 1) :
    Mesh grid (1 / 4) := by
  have := C65_mesh (by norm_num) h rfl rfl
  norm_num at this
  exact this

end Sdepy
