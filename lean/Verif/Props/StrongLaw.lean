import Verif.Lemmas.StrongLaw
import Verif.Props.StrongSolution

/-!
# Property C84: simulated values have the law of the solution, in the limit of short steps
-/

set_option linter.unusedSectionVars false

open MeasureTheory ProbabilityTheory Filter Topology

namespace Sdepy

open Spec

/-- The mean square of the difference of a scheme from any solution is at most a constant times the longest step. -/
theorem solution_close {ι : Type} [Fintype ι] {a b : ℝ → (ι → ℝ) → ι → ℝ} {t0 T L : ℝ} (hT : 0 ≤ T)
    (h : LipschitzCoef a b t0 T L) (x0 : ι → ℝ) :
    ∃ K ≥ 0, ∀ {Ω : Type} [MeasurableSpace Ω] {P : Measure Ω} [IsProbabilityMeasure P]
      {W Y : ℝ → Ω → ι → ℝ}, Drives P t0 (Set.Icc t0 (t0 + T)) W → IsSolution P a b t0 T x0 W Y →
        ∀ {X : ℝ → Ω → ι → ℝ} {grid : List ℝ} {δ : ℝ}, 0 ≤ δ →
          grid.Pairwise (· < ·) → t0 ∈ grid → (∀ u ∈ grid, u ∈ Set.Icc t0 (t0 + T)) → Mesh grid δ →
          IsScheme a b t0 x0 grid W X → ∀ t ∈ grid,
            (∀ i, MemLp (fun ω => X t ω i) 2 P) ∧ meanSq P (fun ω i => X t ω i - Y t ω i) ≤ K * δ := by
  obtain ⟨K, hK, hex⟩ := exists_solution hT h x0
  refine ⟨2 * K, by positivity, ?_⟩
  intro Ω _ P _ W Y hW hY X grid δ hδ hg h0 hI hm hX t ht
  obtain ⟨Y0, hY0, hc⟩ := hex hW
  obtain ⟨hl, hc⟩ := hc hδ hg h0 hI hm hX t ht
  refine ⟨hl, ?_⟩
  have h1 := meanSq_two hl (hY0.memLp t (hI t ht)) (hY.memLp t (hI t ht))
  have h2 := solution_unique hT h hW hY0 hY t (hI t ht)
  rw [h2] at h1
  linarith

section
variable {Ω ι κ O : Type} [MeasurableSpace Ω] [Fintype ι] [Fintype κ] [DecidableEq κ] [DecidableEq ι]
  {P : Measure Ω} [IsProbabilityMeasure P]
  {corr : Corr κ} {D : Set ℝ} {F : ℝ → Matrix κ κ ℝ}
  {G : ℕ → Matrix κ κ ℝ → ℝ → ℝ → Ω → ι → κ → ℝ}
  {a b : ℝ → (ι × κ → ℝ) → ι × κ → ℝ} {t0 : ℝ} {x0 : ι × κ → ℝ}

/-- **C84** (coupling). Simulations of `dx = a(t, x)*dt + b(t, x)*dw` with a Wiener source, and a solution of the same
equation, driven by any Wiener process with the same correlations. There are values with the joint law of those
simulated, at all times of the timeline up to `t0 + T`, such that the mean square of their difference from the solution
is at most a constant times the longest step. -/
theorem C84_coupling (hC : CorrOk corr D F) (hone : ∀ u ∈ D, ∀ k, corrAt corr u k k = 1) (hG : Draws P G)
    (hJ : GaussianDraws P G) {S : SDE ℝ (ι × κ → ℝ) O ℕ (Ω × ℕ)}
    (hsrc : S.sources = [(idT, dtSource), (idW, noise G (corrAt corr))])
    (hsde : ∀ t x, S.sde t x = .ok (some [(idT, a t x), (idW, b t x)])) (hinit : S.init t0 = .ok x0)
    {T L : ℝ} (hT : 0 ≤ T) (hTD : Set.Icc t0 (t0 + T) ⊆ D) (hL : LipschitzCoef a b t0 T L) :
    ∃ K ≥ 0, ∀ {Ω' : Type} [MeasurableSpace Ω'] {P' : Measure Ω'} [IsProbabilityMeasure P']
      {W : ℝ → Ω' → ι → κ → ℝ} {Y : ℝ → Ω' → ι × κ → ℝ},
      IsWienerProcess P' F t0 0 (Set.Icc t0 (t0 + T)) W →
      IsSolution P' a b t0 T (if S.log then S.logX x0 else x0) (fun u ω c => W u ω c.1 c.2) Y →
      ∀ {fuel : ℕ} {steps : Steps ℝ} {i0 : ℤ} {tl : TArr ℝ} {grid : List ℝ} {δ : ℝ} (n : ℕ), 0 ≤ δ →
        Along fuel steps i0 tl grid t0 → (∀ u ∈ tl.data, u ∈ D) → Mesh grid δ →
        ∃ (X : ℝ → Ω → ι × κ → ℝ) (X' : ℝ → Ω' → ι × κ → ℝ) (m : ℕ),
          (∀ ω, S.call fuel steps i0 tl (ω, n) = .ok (tl.data.map fun t => some
            (if S.log then S.expO (S.letX t (X t ω)) else S.letX t (X t ω)), (ω, m))) ∧
          IdentDistrib
            (fun ω (p : {t : ℝ // t ∈ tl.data ∧ t ∈ Set.Icc t0 (t0 + T)} × ι × κ) => X p.1 ω p.2)
            (fun ω (p : {t : ℝ // t ∈ tl.data ∧ t ∈ Set.Icc t0 (t0 + T)} × ι × κ) => X' p.1 ω p.2) P P' ∧
          ∀ t ∈ tl.data, t ∈ Set.Icc t0 (t0 + T) →
            (∀ c, MemLp (fun ω => X' t ω c) 2 P') ∧ meanSq P' (fun ω c => X' t ω c - Y t ω c) ≤ K * δ := by
  obtain ⟨K, hK, hclose⟩ := solution_close hT hL (if S.log then S.logX x0 else x0)
  refine ⟨K, hK, ?_⟩
  intro Ω' _ P' _ W' Y hW' hY fuel steps i0 tl grid δ n hδ ha hD hm
  obtain ⟨-, h2, h3⟩ := along_mem ha
  have hgD := grid_mem ha hC.conn hD
  obtain ⟨W, m, hW, hc⟩ := cumulated_wiener hC hG hJ ha.isGrid.1 h2 hgD n
  obtain ⟨X, hcall, hX⟩ := C83_scheme (W := fun u ω (c : ι × κ) => W u ω c.1 c.2) (s := fun ω => (ω, n))
    (s' := fun ω => (ω, m)) hsrc hsde hinit ha (fun ω => by rw [hc, hW.start]; simp)
  obtain ⟨g, g1, g2, g3, g4, g5⟩ := restrict_grid hT ha.isGrid.1 h2 hm hX
  have hgI : ∀ u ∈ g, u ∈ Set.Icc t0 (t0 + T) := fun u hu => ((g3 u).1 hu).2
  obtain ⟨X', hX'⟩ := exists_sums g1 g2 a b (if S.log then S.logX x0 else x0) fun u ω (c : ι × κ) => W' u ω c.1 c.2
  have hDr : Drives P' t0 (Set.Icc t0 (t0 + T)) fun u ω (c : ι × κ) => W' u ω c.1 c.2 :=
    drives_of_wiener hW' le_rfl (by
      intro s hs t ht k
      rw [← Matrix.sub_apply, hC.mid s (hTD hs) t (hTD ht), Matrix.smul_apply, hone _ (hC.mem (hTD hs) (hTD ht)),
        smul_eq_mul, mul_one])
  have hmem : ∀ t ∈ tl.data, t ∈ Set.Icc t0 (t0 + T) → t ∈ g := fun t h1 h2 => (g3 t).2 ⟨h3 t h1, h2⟩
  refine ⟨X, X', m, hcall, ?_, fun t h1 h2 => hclose hDr hY hδ g1 g2 hgI g4 hX' t (hmem t h1 h2)⟩
  obtain ⟨f, hf, hfX⟩ := scheme_function hL g1 g2 hgI (if S.log then S.logX x0 else x0)
  have hfin : Finite {u : ℝ // u ∈ g} := List.finite_toSet g
  have hfi : Fintype {u : ℝ // u ∈ g} := Fintype.ofFinite _
  have hfs : Fintype ↑{u : ℝ | u ∈ g} := hfi
  have wW := hW.mono (D' := {u | u ∈ g}) fun u hu => ((g3 u).1 hu).1
  have wW' := hW'.mono (D' := {u | u ∈ g}) fun u hu => hgI u hu
  have hlaw : IdentDistrib (fun ω (p : {u : ℝ // u ∈ g} × ι × κ) => W p.1 ω p.2.1 p.2.2)
      (fun ω (p : {u : ℝ // u ∈ g} × ι × κ) => W' p.1 ω p.2.1 p.2.2) P P' := by
    refine ⟨(gauss_pi wW.gauss).aemeasurable, (gauss_pi wW'.gauss).aemeasurable,
      gauss_law_eq wW.gauss wW'.gauss (fun p => ?_) fun p q => ?_⟩
    · rw [wW.mean _ p.1.2, wW'.mean _ p.1.2]
    · rw [wW.cov _ p.1.2 _ q.1.2, wW'.cov _ p.1.2 _ q.1.2]
  have hu : Measurable fun (w : {u : ℝ // u ∈ g} × ι × κ → ℝ)
      (p : {t : ℝ // t ∈ tl.data ∧ t ∈ Set.Icc t0 (t0 + T)} × ι × κ) => f w p.1 p.2 :=
    measurable_pi_lambda _ fun p => (measurable_pi_apply p.2).comp (hf p.1 (hmem _ p.1.2.1 p.1.2.2))
  have e1 : (fun ω (p : {t : ℝ // t ∈ tl.data ∧ t ∈ Set.Icc t0 (t0 + T)} × ι × κ) => X p.1 ω p.2) =
      (fun w p => f w p.1 p.2) ∘ fun ω (p : {u : ℝ // u ∈ g} × ι × κ) => W p.1 ω p.2.1 p.2.2 := by
    funext ω p
    simp only [Function.comp_apply]
    rw [hfX g5 p.1 (hmem _ p.1.2.1 p.1.2.2)]
  have e2 : (fun ω (p : {t : ℝ // t ∈ tl.data ∧ t ∈ Set.Icc t0 (t0 + T)} × ι × κ) => X' p.1 ω p.2) =
      (fun w p => f w p.1 p.2) ∘ fun ω (p : {u : ℝ // u ∈ g} × ι × κ) => W' p.1 ω p.2.1 p.2.2 := by
    funext ω p
    simp only [Function.comp_apply]
    rw [hfX hX' p.1 (hmem _ p.1.2.1 p.1.2.2)]
  rw [e1, e2]
  exact hlaw.comp hu

end

/-- The mean of a distance is at most the square root of the mean square. -/
theorem mean_dist_le {Ω ι : Type} [MeasurableSpace Ω] [Fintype ι] {P : Measure Ω} [IsProbabilityMeasure P]
    {X : Ω → ι → ℝ} (hX : ∀ i, MemLp (fun ω => X ω i) 2 P) :
    Integrable (fun ω => √(∑ i, X ω i ^ 2)) P ∧ ∫ ω, √(∑ i, X ω i ^ 2) ∂P ≤ √(meanSq P X) := by
  have hint : Integrable (fun ω => ∑ i, X ω i ^ 2) P := integrable_finsetSum _ fun i _ => (hX i).integrable_sq
  have hsq : ∀ ω, √(∑ i, X ω i ^ 2) ^ 2 = ∑ i, X ω i ^ 2 := fun ω =>
    Real.sq_sqrt (Finset.sum_nonneg fun i _ => sq_nonneg _)
  have hU : MemLp (fun ω => √(∑ i, X ω i ^ 2)) 2 P := by
    rw [memLp_two_iff_integrable_sq (Real.continuous_sqrt.comp_aestronglyMeasurable hint.aestronglyMeasurable)]
    simpa only [hsq] using hint
  refine ⟨hU.integrable (by norm_num), Real.le_sqrt_of_sq_le ?_⟩
  have hv := variance_nonneg (fun ω => √(∑ i, X ω i ^ 2)) P
  rw [variance_eq_sub hU] at hv
  have e : P[(fun ω => √(∑ i, X ω i ^ 2)) ^ 2] = meanSq P X := by
    simp only [Pi.pow_apply, hsq]
    rw [integral_finsetSum _ fun i _ => (hX i).integrable_sq]
    rfl
  rw [e] at hv
  linarith

theorem lipschitz_integrable {Ω ι : Type} [MeasurableSpace Ω] [Fintype ι] {P : Measure Ω} [IsProbabilityMeasure P]
    {X : Ω → ι → ℝ} (hX : ∀ i, MemLp (fun ω => X ω i) 2 P) {φ : (ι → ℝ) → ℝ} {M : ℝ}
    (hφ : ∀ x y, |φ x - φ y| ≤ M * √(∑ i, (x i - y i) ^ 2)) (hc : Continuous φ) : Integrable (fun ω => φ (X ω)) P := by
  have hm : AEStronglyMeasurable X P := by
    have : AEMeasurable X P := aemeasurable_pi_lambda _ fun i => (hX i).aestronglyMeasurable.aemeasurable
    exact this.aestronglyMeasurable
  refine Integrable.mono' (((integrable_const |φ 0|)).add ((mean_dist_le hX).1.const_mul M))
    (hc.comp_aestronglyMeasurable hm) (.of_forall fun ω => ?_)
  have h := hφ (X ω) 0
  simp only [Pi.zero_apply, sub_zero] at h
  simp only [Real.norm_eq_abs, Pi.add_apply]
  have := abs_sub_abs_le_abs_sub (φ (X ω)) (φ 0)
  linarith

theorem lipschitz_continuous {ι : Type} [Fintype ι] {φ : (ι → ℝ) → ℝ} {M : ℝ}
    (hφ : ∀ x y, |φ x - φ y| ≤ M * √(∑ i, (x i - y i) ^ 2)) : Continuous φ := by
  rw [continuous_iff_continuousAt]
  intro x
  rw [ContinuousAt, tendsto_iff_dist_tendsto_zero]
  have hc : Continuous fun y : ι → ℝ => M * √(∑ i, (y i - x i) ^ 2) := by fun_prop
  have h0 := hc.tendsto x
  simp only [sub_self, ne_eq, OfNat.ofNat_ne_zero, not_false_eq_true, zero_pow, Finset.sum_const_zero, Real.sqrt_zero,
    mul_zero] at h0
  exact squeeze_zero (fun _ => dist_nonneg) (fun y => by rw [Real.dist_eq]; exact hφ y x) h0

section
variable {Ω ι κ O : Type} [MeasurableSpace Ω] [Fintype ι] [Fintype κ] [DecidableEq κ] [DecidableEq ι]
  {P : Measure Ω} [IsProbabilityMeasure P]
  {corr : Corr κ} {D : Set ℝ} {F : ℝ → Matrix κ κ ℝ}
  {G : ℕ → Matrix κ κ ℝ → ℝ → ℝ → Ω → ι → κ → ℝ}
  {a b : ℝ → (ι × κ → ℝ) → ι × κ → ℝ} {t0 : ℝ} {x0 : ι × κ → ℝ}

/-- **C84** (expectations). The expectation of any function of the values simulated for a time `t` of the timeline, that
is Lipschitz of constant `M`, differs from that of the solution by at most `M*√(K*δ)`, where `δ` is the longest step. -/
theorem C84_expectation (hC : CorrOk corr D F) (hone : ∀ u ∈ D, ∀ k, corrAt corr u k k = 1) (hG : Draws P G)
    (hJ : GaussianDraws P G) {S : SDE ℝ (ι × κ → ℝ) O ℕ (Ω × ℕ)}
    (hsrc : S.sources = [(idT, dtSource), (idW, noise G (corrAt corr))])
    (hsde : ∀ t x, S.sde t x = .ok (some [(idT, a t x), (idW, b t x)])) (hinit : S.init t0 = .ok x0)
    {T L : ℝ} (hT : 0 ≤ T) (hTD : Set.Icc t0 (t0 + T) ⊆ D) (hL : LipschitzCoef a b t0 T L) :
    ∃ K ≥ 0, ∀ {Ω' : Type} [MeasurableSpace Ω'] {P' : Measure Ω'} [IsProbabilityMeasure P']
      {W : ℝ → Ω' → ι → κ → ℝ} {Y : ℝ → Ω' → ι × κ → ℝ},
      IsWienerProcess P' F t0 0 (Set.Icc t0 (t0 + T)) W →
      IsSolution P' a b t0 T (if S.log then S.logX x0 else x0) (fun u ω c => W u ω c.1 c.2) Y →
      ∀ {fuel : ℕ} {steps : Steps ℝ} {i0 : ℤ} {tl : TArr ℝ} {grid : List ℝ} {δ : ℝ} (n : ℕ), 0 ≤ δ →
        Along fuel steps i0 tl grid t0 → (∀ u ∈ tl.data, u ∈ D) → Mesh grid δ →
        ∃ (X : ℝ → Ω → ι × κ → ℝ) (m : ℕ),
          (∀ ω, S.call fuel steps i0 tl (ω, n) = .ok (tl.data.map fun t => some
            (if S.log then S.expO (S.letX t (X t ω)) else S.letX t (X t ω)), (ω, m))) ∧
          ∀ t ∈ tl.data, t ∈ Set.Icc t0 (t0 + T) → ∀ (φ : (ι × κ → ℝ) → ℝ) (M : ℝ), 0 ≤ M →
            (∀ x y, |φ x - φ y| ≤ M * √(∑ c, (x c - y c) ^ 2)) →
            Integrable (fun ω => φ (X t ω)) P ∧ Integrable (fun ω => φ (Y t ω)) P' ∧
            |∫ ω, φ (X t ω) ∂P - ∫ ω, φ (Y t ω) ∂P'| ≤ M * √(K * δ) := by
  obtain ⟨K, hK, h⟩ := C84_coupling hC hone hG hJ hsrc hsde hinit hT hTD hL
  refine ⟨K, hK, ?_⟩
  intro Ω' _ P' _ W Y hW hY fuel steps i0 tl grid δ n hδ ha hD hm
  obtain ⟨X, X', m, e1, e2, e3⟩ := h hW hY n hδ ha hD hm
  refine ⟨X, m, e1, fun t ht htI φ M hM hφ => ?_⟩
  have hφc := lipschitz_continuous hφ
  obtain ⟨hl, hms⟩ := e3 t ht htI
  have hYl := hY.memLp t htI
  have hid : IdentDistrib (fun ω => φ (X t ω)) (fun ω => φ (X' t ω)) P P' := by
    have hu : Measurable fun (w : {t : ℝ // t ∈ tl.data ∧ t ∈ Set.Icc t0 (t0 + T)} × ι × κ → ℝ) =>
        φ fun c => w (⟨t, ht, htI⟩, c) :=
      hφc.measurable.comp (measurable_pi_lambda _ fun c => measurable_pi_apply _)
    exact e2.comp hu
  have i1 := lipschitz_integrable hl hφ hφc
  have i2 := lipschitz_integrable hYl hφ hφc
  refine ⟨hid.integrable_iff.2 i1, i2, ?_⟩
  rw [hid.integral_eq, ← integral_sub i1 i2]
  refine (abs_integral_le_integral_abs).trans ?_
  obtain ⟨d1, d2⟩ := mean_dist_le (P := P') (X := fun ω c => X' t ω c - Y t ω c) fun c => (hl c).sub (hYl c)
  calc ∫ ω, |φ (X' t ω) - φ (Y t ω)| ∂P' ≤ ∫ ω, M * √(∑ c, (X' t ω c - Y t ω c) ^ 2) ∂P' :=
        integral_mono (i1.sub i2).abs (d1.const_mul M) fun ω => hφ _ _
    _ = M * ∫ ω, √(∑ c, (X' t ω c - Y t ω c) ^ 2) ∂P' := integral_const_mul _ _
    _ ≤ M * √(K * δ) := mul_le_mul_of_nonneg_left (d2.trans (Real.sqrt_le_sqrt hms)) hM

/-- **C84** (laws). Given simulations with steps shorter and shorter, the joint law of the values simulated, at any times
common to all timelines, converges to that of the solution. -/
theorem C84_law (hC : CorrOk corr D F) (hone : ∀ u ∈ D, ∀ k, corrAt corr u k k = 1) (hG : Draws P G)
    (hJ : GaussianDraws P G) {S : SDE ℝ (ι × κ → ℝ) O ℕ (Ω × ℕ)}
    (hsrc : S.sources = [(idT, dtSource), (idW, noise G (corrAt corr))])
    (hsde : ∀ t x, S.sde t x = .ok (some [(idT, a t x), (idW, b t x)])) (hinit : S.init t0 = .ok x0)
    {T L : ℝ} (hT : 0 ≤ T) (hTD : Set.Icc t0 (t0 + T) ⊆ D) (hL : LipschitzCoef a b t0 T L)
    {Ω' : Type} [MeasurableSpace Ω'] {P' : Measure Ω'} [IsProbabilityMeasure P']
    {W : ℝ → Ω' → ι → κ → ℝ} {Y : ℝ → Ω' → ι × κ → ℝ} (hW : IsWienerProcess P' F t0 0 (Set.Icc t0 (t0 + T)) W)
    (hY : IsSolution P' a b t0 T (if S.log then S.logX x0 else x0) (fun u ω c => W u ω c.1 c.2) Y)
    {fuel : ℕ → ℕ} {steps : ℕ → Steps ℝ} {i0 : ℕ → ℤ} {tl : ℕ → TArr ℝ} {grid : ℕ → List ℝ} {δ : ℕ → ℝ} (n : ℕ → ℕ)
    (hδ : ∀ q, 0 ≤ δ q) (hδ0 : Tendsto δ atTop (𝓝 0)) (ha : ∀ q, Along (fuel q) (steps q) (i0 q) (tl q) (grid q) t0)
    (hD : ∀ q, ∀ u ∈ (tl q).data, u ∈ D) (hm : ∀ q, Mesh (grid q) (δ q)) (J : Finset ℝ)
    (hJt : ∀ q, ∀ t ∈ J, t ∈ (tl q).data) (hJI : ∀ t ∈ J, t ∈ Set.Icc t0 (t0 + T)) :
    ∃ (X : ℕ → ℝ → Ω → ι × κ → ℝ) (m : ℕ → ℕ),
      (∀ q ω, S.call (fuel q) (steps q) (i0 q) (tl q) (ω, n q) = .ok ((tl q).data.map fun t => some
        (if S.log then S.expO (S.letX t (X q t ω)) else S.letX t (X q t ω)), (ω, m q))) ∧
      TendstoInDistribution (fun q ω (p : J × ι × κ) => X q p.1 ω p.2) atTop
        (fun ω (p : J × ι × κ) => Y p.1 ω p.2) (fun _ => P) P' := by
  obtain ⟨K, hK, h⟩ := C84_coupling hC hone hG hJ hsrc hsde hinit hT hTD hL
  choose X X' m e1 e2 e3 using fun q => h hW hY (n q) (hδ q) (ha q) (hD q) (hm q)
  refine ⟨X, m, e1, ?_⟩
  have hYm : AEMeasurable (fun ω (p : J × ι × κ) => Y p.1 ω p.2) P' :=
    aemeasurable_pi_lambda _ fun p => (hY.memLp p.1 (hJI _ p.1.2) p.2).aestronglyMeasurable.aemeasurable
  have hX'm : ∀ q, AEMeasurable (fun ω (p : J × ι × κ) => X' q p.1 ω p.2) P' := fun q =>
    aemeasurable_pi_lambda _ fun p => ((e3 q p.1 (hJt q _ p.1.2) (hJI _ p.1.2)).1 p.2).aestronglyMeasurable.aemeasurable
  have hid : ∀ q, IdentDistrib (fun ω (p : J × ι × κ) => X q p.1 ω p.2) (fun ω (p : J × ι × κ) => X' q p.1 ω p.2)
      P P' := by
    intro q
    have hu : Measurable fun (w : {t : ℝ // t ∈ (tl q).data ∧ t ∈ Set.Icc t0 (t0 + T)} × ι × κ → ℝ)
        (p : J × ι × κ) => w (⟨p.1, hJt q _ p.1.2, hJI _ p.1.2⟩, p.2) :=
      measurable_pi_lambda _ fun p => measurable_pi_apply _
    exact (e2 q).comp hu
  have hmeas : TendstoInMeasure P' (fun q ω (p : J × ι × κ) => X' q p.1 ω p.2) atTop
      (fun ω (p : J × ι × κ) => Y p.1 ω p.2) := by
    rw [tendstoInMeasure_iff_measureReal_dist]
    intro ε hε
    have hlim : Tendsto (fun q => ((J.card : ℝ) * (K * δ q)) / ε ^ 2) atTop (𝓝 0) := by
      have := ((hδ0.const_mul K).const_mul (J.card : ℝ)).div_const (ε ^ 2)
      simpa using this
    refine squeeze_zero (fun _ => measureReal_nonneg) (fun q => ?_) hlim
    have hl : ∀ p : J × ι × κ, MemLp (fun ω => X' q p.1 ω p.2 - Y p.1 ω p.2) 2 P' := fun p =>
      ((e3 q p.1 (hJt q _ p.1.2) (hJI _ p.1.2)).1 p.2).sub (hY.memLp p.1 (hJI _ p.1.2) p.2)
    have hint : Integrable (fun ω => ∑ p : J × ι × κ, (X' q p.1 ω p.2 - Y p.1 ω p.2) ^ 2) P' :=
      integrable_finsetSum _ fun p _ => (hl p).integrable_sq
    have hmk := mul_meas_ge_le_integral_of_nonneg
      (.of_forall fun ω => Finset.sum_nonneg fun (p : J × ι × κ) _ => sq_nonneg (X' q p.1 ω p.2 - Y p.1 ω p.2)) hint
      (ε ^ 2)
    have hsum : ∫ ω, ∑ p : J × ι × κ, (X' q p.1 ω p.2 - Y p.1 ω p.2) ^ 2 ∂P' ≤ (J.card : ℝ) * (K * δ q) := by
      rw [integral_finsetSum _ fun p _ => (hl p).integrable_sq, Fintype.sum_prod_type]
      refine (Finset.sum_le_card_nsmul _ _ (K * δ q) fun t _ => ?_).trans_eq ?_
      · exact (e3 q t (hJt q _ t.2) (hJI _ t.2)).2
      · simp
    rw [le_div_iff₀ (by positivity), mul_comm]
    refine le_trans (mul_le_mul_of_nonneg_left (measureReal_mono fun ω hω => ?_) (by positivity)) (hmk.trans hsum)
    simp only [Set.mem_setOf_eq] at hω ⊢
    by_contra hlt
    push Not at hlt
    refine absurd hω (not_le.2 ((dist_pi_lt_iff hε).2 fun p => ?_))
    rw [Real.dist_eq]
    refine abs_lt_of_sq_lt_sq (lt_of_le_of_lt ?_ hlt) hε.le
    exact Finset.single_le_sum (f := fun p : J × ι × κ => (X' q p.1 ω p.2 - Y p.1 ω p.2) ^ 2)
      (fun p _ => sq_nonneg _) (Finset.mem_univ p)
  have hdist := hmeas.tendstoInDistribution hX'm
  refine ⟨fun q => (hid q).aemeasurable_fst, hYm, ?_⟩
  refine hdist.tendsto.congr fun q => Subtype.ext ?_
  exact (hid q).map_eq.symm

end

/-- All the hypotheses hold together: `dx = x/20*dt + x/5*dw`, from the value 10 at time 1, with correlated components.
The mean of `|x|`, for the values simulated with two steps at time 2, compared with that of the solution. -/
example : ∃ (Ω : Type) (_ : MeasurableSpace Ω) (P : Measure Ω)
    (G : ℕ → Matrix (Fin 2) (Fin 2) ℝ → ℝ → ℝ → Ω → Fin 3 → Fin 2 → ℝ) (Ω' : Type) (_ : MeasurableSpace Ω')
    (P' : Measure Ω') (W : ℝ → Ω' → Fin 3 × Fin 2 → ℝ) (Y : ℝ → Ω' → Fin 3 × Fin 2 → ℝ) (X : ℝ → Ω → Fin 3 × Fin 2 → ℝ)
    (K : ℝ) (m : ℕ),
    IsSolution P' (fun _ x c => 1 / 20 * x c) (fun _ x c => 1 / 5 * x c) 1 1 (fun _ => 10) W Y ∧
    (∀ ω, (exGbm (noise G fun _ => !![1, 1 / 2; 1 / 2, 1])).call 10 .none 0 ⟨[3], [1, 3 / 2, 2]⟩ (ω, 0) =
      .ok ([some (X 1 ω), some (X (3 / 2) ω), some (X 2 ω)], (ω, m))) ∧
    |∫ ω, |X 2 ω (0, 1)| ∂P - ∫ ω, |Y 2 ω (0, 1)| ∂P'| ≤ √(K * (1 / 2)) := by
  obtain ⟨Ω, mΩ, P, N0, N, hP, -, -, hN, -, hJ⟩ := exists_rng
  have hN' : Normals P (fun n c ω (i : Fin 3) => N 2 n c ω [i.1]) :=
    ⟨fun n c i => (hN 2).l2 n c _, fun n c i => (hN 2).mean n c _, fun n c i j hc => by
      rw [(hN 2).cov n c _ _ hc]
      simp [Fin.ext_iff], fun n c i m c' j h => (hN 2).uncorr n c _ m c' _ h⟩
  have hJ' : JointlyGaussian P (fun n c ω (i : Fin 3) => N 2 n c ω [i.1]) :=
    gauss_of_affSpan (hJ 2) fun p => affSpan_draw
      (fun (p : ℕ × Matrix (Fin 2) (Fin 2) ℝ × List ℕ × Fin 2) ω => N 2 p.1 p.2.1 ω p.2.2.1 p.2.2.2)
      (p.1, p.2.1, [p.2.2.1.1], p.2.2.2)
  obtain ⟨Ω', mΩ', P', W, hP', hW⟩ := exists_wiener (ι := Fin 3) exPosSemidef 1 0
  have hWI := hW.mono (D' := Set.Icc 1 (1 + 1)) (Set.subset_univ _)
  have hD := drives_of_wiener (t1 := 1) hWI le_rfl (by
    intro s _ t _ k
    rw [Matrix.smul_apply, Matrix.smul_apply, smul_eq_mul, smul_eq_mul, ← sub_mul]
    fin_cases k <;> simp)
  obtain ⟨K0, hK0, h⟩ := exists_solution (ι := Fin 3 × Fin 2) zero_le_one (exLipschitz (1 / 20) (1 / 5) 1 1) fun _ => 10
  obtain ⟨Y, hY, -⟩ := h hD
  obtain ⟨K, -, h⟩ := C84_expectation (t0 := 1) (T := 1) (D := Set.univ) (S := exGbm _)
    (corr := .const !![1, 1 / 2; 1 / 2, 1]) (corrOk_const exPosSemidef)
    (by intro u _ k; fin_cases k <;> simp [corrAt]) (draws_of_normals hN') (gaussianDraws_of_jointly hJ') rfl
    (fun _ _ => rfl) rfl zero_le_one (Set.subset_univ _) (exLipschitz (1 / 20) (1 / 5) 1 1)
  obtain ⟨X, m, e1, e2⟩ := h hWI hY (δ := 1 / 2) 0 (by norm_num) exAlongS (fun _ _ => trivial) (by
      intro a ha b hb hab hn
      simp at ha hb
      rcases ha with rfl | rfl | rfl <;> rcases hb with rfl | rfl | rfl <;> try norm_num
      exact absurd (hn (3 / 2) (by simp)) (by norm_num))
  have := (e2 2 (by simp) (by norm_num) (fun x => |x (0, 1)|) 1 zero_le_one fun x y => by
    rw [one_mul]
    refine (abs_abs_sub_abs_le_abs_sub _ _).trans (Real.le_sqrt_of_sq_le ?_)
    rw [sq_abs]
    exact Finset.single_le_sum (f := fun c => (x c - y c) ^ 2) (fun p _ => sq_nonneg _) (Finset.mem_univ (0, 1))).2.2
  rw [one_mul] at this
  exact ⟨Ω, mΩ, P, _, Ω', mΩ', P', _, Y, X, K, m, hY, e1, this⟩

/-- timelines `1, 2` with more and more steps in between -/
theorem exAlongSeq : ∃ grid : ℕ → List ℝ, (∀ q, Mesh (grid q) (1 / (q + 1))) ∧
    ∀ q, Along (grid q).length (.iter (grid q)) 0 ⟨[2], [1, 2]⟩ (grid q) 1 := by
  choose grid h1 h2 h3 h4 h5 using fun q : ℕ => exists_grid (t0 := 1) (T := 1) (t := 2) (δ := 1 / ((q : ℝ) + 1))
    (by positivity) (by norm_num)
  refine ⟨grid, h5, fun q => ⟨⟨rfl, by simp⟩, ⟨0, ⟨by simp, .inl rfl⟩, rfl⟩, by rintro n ⟨⟩, ⟨h1 q, fun u => ?_⟩, le_rfl⟩⟩
  simp only [Requested, List.mem_cons, List.not_mem_nil, or_false, exists_eq_or_imp, exists_eq_left]
  constructor
  · intro hu
    have := h4 q u hu
    exact .inr ⟨hu, .inl this.1, .inr (by linarith [this.2])⟩
  · rintro ((rfl | rfl) | ⟨hu, -⟩)
    · exact h2 q
    · exact h3 q
    · exact hu

/-- the same geometric Brownian motions, simulated from 1 to 2 with steps of at most 1, 1/2, 1/3 and so on: the values
simulated at 2 converge in law to the solution -/
example : ∃ (Ω : Type) (_ : MeasurableSpace Ω) (P : Measure Ω)
    (G : ℕ → Matrix (Fin 2) (Fin 2) ℝ → ℝ → ℝ → Ω → Fin 3 → Fin 2 → ℝ)
    (Ω' : Type) (_ : MeasurableSpace Ω') (P' : Measure Ω') (_ : IsProbabilityMeasure P) (_ : IsProbabilityMeasure P')
    (W Y : ℝ → Ω' → Fin 3 × Fin 2 → ℝ) (grid : ℕ → List ℝ) (X : ℕ → ℝ → Ω → Fin 3 × Fin 2 → ℝ) (m : ℕ → ℕ),
    IsSolution P' (fun _ x c => 1 / 20 * x c) (fun _ x c => 1 / 5 * x c) 1 1 (fun _ => 10) W Y ∧
    (∀ q ω, (exGbm (noise G fun _ => !![1, 1 / 2; 1 / 2, 1])).call (grid q).length (.iter (grid q)) 0 ⟨[2], [1, 2]⟩ (ω, 0) =
      .ok ([some (X q 1 ω), some (X q 2 ω)], (ω, m q))) ∧
    TendstoInDistribution (fun q ω (p : ({2} : Finset ℝ) × Fin 3 × Fin 2) => X q p.1 ω p.2) atTop
        (fun ω (p : ({2} : Finset ℝ) × Fin 3 × Fin 2) => Y p.1 ω p.2) (fun _ => P) P' := by
  obtain ⟨Ω, mΩ, P, N0, N, hP, -, -, hN, -, hJ⟩ := exists_rng
  have hN' : Normals P (fun n c ω (i : Fin 3) => N 2 n c ω [i.1]) :=
    ⟨fun n c i => (hN 2).l2 n c _, fun n c i => (hN 2).mean n c _, fun n c i j hc => by
      rw [(hN 2).cov n c _ _ hc]
      simp [Fin.ext_iff], fun n c i m c' j h => (hN 2).uncorr n c _ m c' _ h⟩
  have hJ' : JointlyGaussian P (fun n c ω (i : Fin 3) => N 2 n c ω [i.1]) :=
    gauss_of_affSpan (hJ 2) fun p => affSpan_draw
      (fun (p : ℕ × Matrix (Fin 2) (Fin 2) ℝ × List ℕ × Fin 2) ω => N 2 p.1 p.2.1 ω p.2.2.1 p.2.2.2)
      (p.1, p.2.1, [p.2.2.1.1], p.2.2.2)
  obtain ⟨Ω', mΩ', P', W, hP', hW⟩ := exists_wiener (ι := Fin 3) exPosSemidef 1 0
  have hWI := hW.mono (D' := Set.Icc 1 (1 + 1)) (Set.subset_univ _)
  have hD := drives_of_wiener (t1 := 1) hWI le_rfl (by
    intro s _ t _ k
    rw [Matrix.smul_apply, Matrix.smul_apply, smul_eq_mul, smul_eq_mul, ← sub_mul]
    fin_cases k <;> simp)
  obtain ⟨K0, hK0, h⟩ := exists_solution (ι := Fin 3 × Fin 2) zero_le_one (exLipschitz (1 / 20) (1 / 5) 1 1) fun _ => 10
  obtain ⟨Y, hY, -⟩ := h hD
  obtain ⟨grid, g1, g2⟩ := exAlongSeq
  obtain ⟨X, m, e1, e2⟩ := C84_law (t0 := 1) (T := 1) (D := Set.univ) (S := exGbm _)
    (corr := .const !![1, 1 / 2; 1 / 2, 1]) (corrOk_const exPosSemidef)
    (by intro u _ k; fin_cases k <;> simp [corrAt]) (draws_of_normals hN') (gaussianDraws_of_jointly hJ') rfl
    (fun _ _ => rfl) rfl zero_le_one (Set.subset_univ _) (exLipschitz (1 / 20) (1 / 5) 1 1) hWI hY
    (fun _ => 0) (fun q => by positivity) tendsto_one_div_add_atTop_nhds_zero_nat g2 (fun _ _ _ => trivial) g1 {2}
    (fun q t ht => by rw [Finset.mem_singleton.1 ht]; simp)
    (fun t ht => by rw [Finset.mem_singleton.1 ht]; norm_num)
  exact ⟨Ω, mΩ, P, _, Ω', mΩ', P', hP, hP', _, Y, grid, X, m, hY, e1, e2⟩

end Sdepy
