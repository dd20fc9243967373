import Verif.Lemmas.BackLaw
import Verif.Props.Back
import Verif.Props.StrongNLaw

/-!
# Property C92: laws of values simulated backwards from the initial time
-/

set_option linter.unusedSectionVars false

open MeasureTheory ProbabilityTheory Filter Topology

namespace Sdepy

open Spec

/-! ### From couplings to expectations and laws -/

section
variable {Ω σ ι : Type} [Fintype ι] [MeasurableSpace Ω] [MeasurableSpace σ] {P : Measure Ω} {μ : Measure σ}
  [IsProbabilityMeasure P] [IsProbabilityMeasure μ]

theorem expectation_of_coupling {X : σ → ι → ℝ} {X' Y : Ω → ι → ℝ} {B : ℝ} (hid : IdentDistrib X X' μ P)
    (hl : ∀ i, MemLp (fun ω => X' ω i) 2 P) (hYl : ∀ i, MemLp (fun ω => Y ω i) 2 P)
    (hms : meanSq P (fun ω i => X' ω i - Y ω i) ≤ B) {φ : (ι → ℝ) → ℝ} {M : ℝ} (hM : 0 ≤ M)
    (hφ : ∀ x y, |φ x - φ y| ≤ M * √(∑ i, (x i - y i) ^ 2)) :
    Integrable (fun s => φ (X s)) μ ∧ Integrable (fun ω => φ (Y ω)) P ∧
      |∫ s, φ (X s) ∂μ - ∫ ω, φ (Y ω) ∂P| ≤ M * √B := by
  have hφc := lipschitz_continuous hφ
  have hid' : IdentDistrib (fun s => φ (X s)) (fun ω => φ (X' ω)) μ P := hid.comp hφc.measurable
  have i1 := lipschitz_integrable hl hφ hφc
  have i2 := lipschitz_integrable hYl hφ hφc
  refine ⟨hid'.integrable_iff.2 i1, i2, ?_⟩
  rw [hid'.integral_eq, ← integral_sub i1 i2]
  refine (abs_integral_le_integral_abs).trans ?_
  obtain ⟨d1, d2⟩ := mean_dist_le (P := P) (X := fun ω i => X' ω i - Y ω i) fun i => (hl i).sub (hYl i)
  calc ∫ ω, |φ (X' ω) - φ (Y ω)| ∂P ≤ ∫ ω, M * √(∑ i, (X' ω i - Y ω i) ^ 2) ∂P :=
        integral_mono (i1.sub i2).abs (d1.const_mul M) fun ω => hφ _ _
    _ = M * ∫ ω, √(∑ i, (X' ω i - Y ω i) ^ 2) ∂P := integral_const_mul _ _
    _ ≤ M * √B := mul_le_mul_of_nonneg_left (d2.trans (Real.sqrt_le_sqrt hms)) hM

theorem law_of_coupling {J : Finset ℝ} {X : ℕ → ℝ → σ → ι → ℝ} {X' : ℕ → ℝ → Ω → ι → ℝ} {Y : ℝ → Ω → ι → ℝ} {B : ℕ → ℝ}
    (hB : Tendsto B atTop (𝓝 0))
    (hid : ∀ q, IdentDistrib (fun s (p : J × ι) => X q p.1 s p.2) (fun ω (p : J × ι) => X' q p.1 ω p.2) μ P)
    (hX : ∀ q, ∀ t ∈ J, ∀ i, MemLp (fun ω => X' q t ω i) 2 P) (hY : ∀ t ∈ J, ∀ i, MemLp (fun ω => Y t ω i) 2 P)
    (hms : ∀ q, ∀ t ∈ J, meanSq P (fun ω i => X' q t ω i - Y t ω i) ≤ B q) :
    TendstoInDistribution (fun q s (p : J × ι) => X q p.1 s p.2) atTop
      (fun ω (p : J × ι) => Y p.1 ω p.2) (fun _ => μ) P := by
  have hYm : AEMeasurable (fun ω (p : J × ι) => Y p.1 ω p.2) P :=
    aemeasurable_pi_lambda _ fun p => (hY p.1 p.1.2 p.2).aestronglyMeasurable.aemeasurable
  have hX'm : ∀ q, AEMeasurable (fun ω (p : J × ι) => X' q p.1 ω p.2) P := fun q =>
    aemeasurable_pi_lambda _ fun p => (hX q p.1 p.1.2 p.2).aestronglyMeasurable.aemeasurable
  have hmeas : TendstoInMeasure P (fun q ω (p : J × ι) => X' q p.1 ω p.2) atTop
      (fun ω (p : J × ι) => Y p.1 ω p.2) := by
    rw [tendstoInMeasure_iff_measureReal_dist]
    intro ε hε
    have hlim : Tendsto (fun q => ((J.card : ℝ) * B q) / ε ^ 2) atTop (𝓝 0) := by
      have := (hB.const_mul (J.card : ℝ)).div_const (ε ^ 2)
      simpa using this
    refine squeeze_zero (fun _ => measureReal_nonneg) (fun q => ?_) hlim
    have hl : ∀ p : J × ι, MemLp (fun ω => X' q p.1 ω p.2 - Y p.1 ω p.2) 2 P := fun p =>
      (hX q p.1 p.1.2 p.2).sub (hY p.1 p.1.2 p.2)
    have hint : Integrable (fun ω => ∑ p : J × ι, (X' q p.1 ω p.2 - Y p.1 ω p.2) ^ 2) P :=
      integrable_finsetSum _ fun p _ => (hl p).integrable_sq
    have hmk := mul_meas_ge_le_integral_of_nonneg
      (.of_forall fun ω => Finset.sum_nonneg fun (p : J × ι) _ => sq_nonneg (X' q p.1 ω p.2 - Y p.1 ω p.2)) hint
      (ε ^ 2)
    have hsum : ∫ ω, ∑ p : J × ι, (X' q p.1 ω p.2 - Y p.1 ω p.2) ^ 2 ∂P ≤ (J.card : ℝ) * B q := by
      rw [integral_finsetSum _ fun p _ => (hl p).integrable_sq, Fintype.sum_prod_type]
      refine (Finset.sum_le_card_nsmul _ _ (B q) fun t _ => ?_).trans_eq ?_
      · exact hms q t t.2
      · simp
    rw [le_div_iff₀ (by positivity), mul_comm]
    refine le_trans (mul_le_mul_of_nonneg_left (measureReal_mono fun ω hω => ?_) (by positivity)) (hmk.trans hsum)
    simp only [Set.mem_setOf_eq] at hω ⊢
    by_contra hlt
    push Not at hlt
    refine absurd hω (not_le.2 ((dist_pi_lt_iff hε).2 fun p => ?_))
    rw [Real.dist_eq]
    refine abs_lt_of_sq_lt_sq (lt_of_le_of_lt ?_ hlt) hε.le
    exact Finset.single_le_sum (f := fun p : J × ι => (X' q p.1 ω p.2 - Y p.1 ω p.2) ^ 2)
      (fun p _ => sq_nonneg _) (Finset.mem_univ p)
  have hdist := hmeas.tendstoInDistribution hX'm
  refine ⟨fun q => (hid q).aemeasurable_fst, hYm, ?_⟩
  refine hdist.tendsto.congr fun q => Subtype.ext ?_
  exact (hid q).map_eq.symm

end

section
variable {ι σ O : Type} [Fintype ι] [MeasurableSpace σ] {μ : Measure σ} [IsProbabilityMeasure μ]
  {S : SDE ℝ (ι → ℝ) O ℕ σ} {c : ℕ → ℝ → (ι → ℝ) → ι → ℝ} {t0 : ℝ} {x0 : ι → ℝ}
  {law : (equation S).Stochastic idT → ℝ → Measure (ι → ℝ)}

/-- Simulations backwards that draw increments of given laws, and noise whose increments have the same laws: schemes driven by
the noise, with time reversed, have the joint law of values simulated. -/
theorem coupling_of_scheme_back (hS : SDEOk S) (hdt : S.sources.lookup idT = some dtSource)
    (hcoef : ∀ t x, (equation S).coef t x = .ok fun id => c id t x) (hinit : S.init t0 = .ok x0)
    [Nonempty ((equation S).Stochastic idT)] (hdraw : (equation S).DrawsNoiseBack idT μ law) {T L : ℝ} (hT : 0 ≤ T)
    (hL : LipschitzCoefs (c idT) (fun j : (equation S).Stochastic idT => c j.1) (t0 - T) T L)
    {Ω : Type} [MeasurableSpace Ω] {P : Measure Ω} [IsProbabilityMeasure P]
    {Z' : ℝ → Ω → (equation S).Stochastic idT → ι → ℝ}
    (hZ' : IncrementsBack P t0 (Set.Icc (t0 - T) t0) (fun h => Measure.pi fun j => law j h) Z')
    {fuel : ℕ} {steps : Steps ℝ} {i0 : ℤ} {tl : TArr ℝ} {grid : List ℝ} {δ : ℝ}
    (ha : Along fuel steps i0 tl grid t0) (hm : Mesh grid δ) :
    ∃ (X : ℝ → σ → ι → ℝ) (X' : ℝ → Ω → ι → ℝ) (st : σ → σ) (g : List ℝ),
      (∀ s, S.call fuel steps i0 tl s = .ok (tl.data.map fun t => some
        (if S.log then S.expO (S.letX t (X t s)) else S.letX t (X t s)), st s)) ∧
      g.Pairwise (· < ·) ∧ t0 ∈ g ∧ (∀ u ∈ g, u ∈ Set.Icc t0 (t0 + T)) ∧ Mesh g δ ∧
      (∀ t ∈ tl.data, t ∈ Set.Icc (t0 - T) t0 → 2 * t0 - t ∈ g) ∧
      AreSums (reflectDrift t0 (c idT)) (reflectVol t0 fun j : (equation S).Stochastic idT => c j.1) t0
        (if S.log then S.logX x0 else x0) g (fun u ω p => Z' (2 * t0 - u) ω p.1 p.2) X' X' ∧
      IdentDistrib
        (fun s (p : {t : ℝ // t ∈ tl.data ∧ t ∈ Set.Icc (t0 - T) t0} × ι) => X p.1 s p.2)
        (fun ω (p : {t : ℝ // t ∈ tl.data ∧ t ∈ Set.Icc (t0 - T) t0} × ι) => X' (2 * t0 - p.1) ω p.2) μ P := by
  have hL' := lipschitz_reflect hL
  obtain ⟨-, h2, h3⟩ := along_mem ha
  have hk : ∀ t dt s, (equation S).noise idT t dt s = .ok (fun _ => dt, s) := by
    intro t dt s
    simp only [equation, hdt]
    rfl
  have hZr := increments_reflect hZ'
  rw [reflect_Icc] at hZr
  obtain ⟨Z, st, hZ0, hR, hlaws⟩ := exists_realised_back hdraw hk ha.isGrid.1 h2 hT
  obtain ⟨X, hcall, hX⟩ := C91_scheme hS hdt hcoef hinit ha hR
  obtain ⟨g, g1, g2, g3, g4, g5⟩ := restrict_grid_back hT ha.isGrid.1 h2 hm hX
  have r1 := reflectGrid_pairwise (t0 := t0) g1
  have r2 := reflectGrid_start g2
  have hgI : ∀ u ∈ reflectGrid t0 g, u ∈ Set.Icc t0 (t0 + T) := fun u hu => by
    have := ((g3 _).1 (mem_reflectGrid.1 hu)).2
    exact ⟨by linarith [this.2], by linarith [this.1]⟩
  obtain ⟨X', hX'⟩ := exists_schemes r1 r2 (reflectDrift t0 (c idT))
    (reflectVol t0 fun j : (equation S).Stochastic idT => c j.1)
    (if S.log then S.logX x0 else x0) fun u ω (p : (equation S).Stochastic idT × ι) => Z' (2 * t0 - u) ω p.1 p.2
  have hmem : ∀ t ∈ tl.data, t ∈ Set.Icc (t0 - T) t0 → 2 * t0 - t ∈ reflectGrid t0 g := fun t h1 h2 =>
    mem_reflectGrid.2 (by rw [sub_sub_cancel]; exact (g3 t).2 ⟨h3 t h1, h2⟩)
  refine ⟨X, X', st, reflectGrid t0 g, hcall, r1, r2, hgI, reflectGrid_mesh g4, hmem, hX', ?_⟩
  obtain ⟨f, hf, hfX⟩ := scheme_function_all hL' r1 r2 hgI (if S.log then S.logX x0 else x0)
  have hlaw := stepLaws_law (hlaws g3) (stepLaws_of_increments hZr r2 hgI) r1 r2 fun u hu => (hgI u hu).1
  have hu : Measurable fun (w : {u : ℝ // u ∈ reflectGrid t0 g} → (equation S).Stochastic idT → ι → ℝ)
      (p : {t : ℝ // t ∈ tl.data ∧ t ∈ Set.Icc (t0 - T) t0} × ι) => f w (2 * t0 - p.1) p.2 :=
    measurable_pi_lambda _ fun p => (measurable_pi_apply p.2).comp (hf _ (hmem _ p.1.2.1 p.1.2.2))
  have e1 : (fun s (p : {t : ℝ // t ∈ tl.data ∧ t ∈ Set.Icc (t0 - T) t0} × ι) => X p.1 s p.2) =
      (fun w p => f w (2 * t0 - p.1) p.2) ∘ fun s (u : {u : ℝ // u ∈ reflectGrid t0 g}) =>
        Z (2 * t0 - u) s - Z (2 * t0 - t0) s := by
    funext s p
    have := congrFun (hfX (sums_reflect g5) _ (hmem _ p.1.2.1 p.1.2.2) s) p.2
    simp only [sub_sub_cancel] at this
    simp only [Function.comp_apply]
    rw [this]
    rfl
  have e2 : (fun ω (p : {t : ℝ // t ∈ tl.data ∧ t ∈ Set.Icc (t0 - T) t0} × ι) => X' (2 * t0 - p.1) ω p.2) =
      (fun w p => f w (2 * t0 - p.1) p.2) ∘ fun ω (u : {u : ℝ // u ∈ reflectGrid t0 g}) =>
        Z' (2 * t0 - u) ω - Z' (2 * t0 - t0) ω := by
    funext ω p
    simp only [Function.comp_apply]
    rw [hfX hX' _ (hmem _ p.1.2.1 p.1.2.2)]
    rfl
  rw [e1, e2]
  exact hlaw.comp hu

/-- Simulations backwards that draw increments of given laws, and a solution driven by noise whose increments have the same
laws: if schemes driven by the noise of the solution are close to it, with time reversed, there are values with the joint
law of those simulated that are as close. -/
theorem coupling_of_close_back (hS : SDEOk S) (hdt : S.sources.lookup idT = some dtSource)
    (hcoef : ∀ t x, (equation S).coef t x = .ok fun id => c id t x) (hinit : S.init t0 = .ok x0)
    [Nonempty ((equation S).Stochastic idT)] (hdraw : (equation S).DrawsNoiseBack idT μ law) {T L : ℝ} (hT : 0 ≤ T)
    (hL : LipschitzCoefs (c idT) (fun j : (equation S).Stochastic idT => c j.1) (t0 - T) T L)
    {Ω : Type} [MeasurableSpace Ω] {P : Measure Ω} [IsProbabilityMeasure P]
    {Z' : ℝ → Ω → (equation S).Stochastic idT → ι → ℝ} {Y : ℝ → Ω → ι → ℝ}
    (hZ' : IncrementsBack P t0 (Set.Icc (t0 - T) t0) (fun h => Measure.pi fun j => law j h) Z')
    {fuel : ℕ} {steps : Steps ℝ} {i0 : ℤ} {tl : TArr ℝ} {grid : List ℝ} {δ B : ℝ}
    (hclose : ∀ {X : ℝ → Ω → ι → ℝ} {g : List ℝ}, g.Pairwise (· < ·) → t0 ∈ g →
      (∀ u ∈ g, u ∈ Set.Icc t0 (t0 + T)) → Mesh g δ →
      AreSums (reflectDrift t0 (c idT)) (reflectVol t0 fun j : (equation S).Stochastic idT => c j.1) t0
        (if S.log then S.logX x0 else x0) g (fun u ω p => Z' (2 * t0 - u) ω p.1 p.2) X X → ∀ t ∈ g,
        (∀ i, MemLp (fun ω => X t ω i) 2 P) ∧ meanSq P (fun ω i => X t ω i - Y (2 * t0 - t) ω i) ≤ B)
    (ha : Along fuel steps i0 tl grid t0) (hm : Mesh grid δ) :
    ∃ (X : ℝ → σ → ι → ℝ) (X' : ℝ → Ω → ι → ℝ) (st : σ → σ),
      (∀ s, S.call fuel steps i0 tl s = .ok (tl.data.map fun t => some
        (if S.log then S.expO (S.letX t (X t s)) else S.letX t (X t s)), st s)) ∧
      IdentDistrib
        (fun s (p : {t : ℝ // t ∈ tl.data ∧ t ∈ Set.Icc (t0 - T) t0} × ι) => X p.1 s p.2)
        (fun ω (p : {t : ℝ // t ∈ tl.data ∧ t ∈ Set.Icc (t0 - T) t0} × ι) => X' p.1 ω p.2) μ P ∧
      ∀ t ∈ tl.data, t ∈ Set.Icc (t0 - T) t0 →
        (∀ i, MemLp (fun ω => X' t ω i) 2 P) ∧ meanSq P (fun ω i => X' t ω i - Y t ω i) ≤ B := by
  obtain ⟨X, X', st, g, hcall, g1, g2, g3, g4, g5, g6, g7⟩ :=
    coupling_of_scheme_back hS hdt hcoef hinit hdraw hT hL hZ' ha hm
  refine ⟨X, fun t => X' (2 * t0 - t), st, hcall, g7, fun t h1 h2 => ?_⟩
  have := hclose g1 g2 g3 g4 g6 (2 * t0 - t) (g5 t h1 h2)
  simpa only [sub_sub_cancel] using this

/-- **C92** (coupling). Simulations of an equation with any number of sources of noise, that draw from a random generator
increments of given laws over steps backwards; and a solution of the same equation, for times before `t0`, driven by any
noise whose increments backwards have the same laws, and are independent of what happened between their start and `t0`.
There are values with the joint law of those simulated, at all times of the timeline from `t0` back to `t0 - T`, such
that the mean square of their difference from the solution is at most a constant times the longest step. -/
theorem C92_coupling (hS : SDEOk S) (hdt : S.sources.lookup idT = some dtSource)
    (hcoef : ∀ t x, (equation S).coef t x = .ok fun id => c id t x) (hinit : S.init t0 = .ok x0)
    [Nonempty ((equation S).Stochastic idT)] (hdraw : (equation S).DrawsNoiseBack idT μ law) {T L : ℝ} (hT : 0 ≤ T)
    (hL : LipschitzCoefs (c idT) (fun j : (equation S).Stochastic idT => c j.1) (t0 - T) T L)
    {m v : (equation S).Stochastic idT → ℝ} (hv : ∀ j, 0 < v j) (hmo : ∀ j, HasMoments (law j) (m j) (v j)) :
    ∃ K ≥ 0, ∀ {Ω : Type} [MeasurableSpace Ω] {P : Measure Ω} [IsProbabilityMeasure P]
      {Z : ℝ → Ω → (equation S).Stochastic idT → ι → ℝ} {Y : ℝ → Ω → ι → ℝ},
      IncrementsBack P t0 (Set.Icc (t0 - T) t0) (fun h => Measure.pi fun j => law j h) Z →
      SolvesBack P (c idT) (fun j : (equation S).Stochastic idT => c j.1) t0 T (if S.log then S.logX x0 else x0)
        (fun u ω p => Z u ω p.1 p.2) Y →
      ∀ {fuel : ℕ} {steps : Steps ℝ} {i0 : ℤ} {tl : TArr ℝ} {grid : List ℝ} {δ : ℝ}, 0 ≤ δ →
        Along fuel steps i0 tl grid t0 → Mesh grid δ →
        ∃ (X : ℝ → σ → ι → ℝ) (X' : ℝ → Ω → ι → ℝ) (st : σ → σ),
          (∀ s, S.call fuel steps i0 tl s = .ok (tl.data.map fun t => some
            (if S.log then S.expO (S.letX t (X t s)) else S.letX t (X t s)), st s)) ∧
          IdentDistrib
            (fun s (p : {t : ℝ // t ∈ tl.data ∧ t ∈ Set.Icc (t0 - T) t0} × ι) => X p.1 s p.2)
            (fun ω (p : {t : ℝ // t ∈ tl.data ∧ t ∈ Set.Icc (t0 - T) t0} × ι) => X' p.1 ω p.2) μ P ∧
          ∀ t ∈ tl.data, t ∈ Set.Icc (t0 - T) t0 →
            (∀ i, MemLp (fun ω => X' t ω i) 2 P) ∧ meanSq P (fun ω i => X' t ω i - Y t ω i) ≤ K * δ := by
  have hL' := lipschitz_reflect hL
  obtain ⟨K, hK, hclose⟩ := solution_close_all hT hL' (if S.log then S.logX x0 else x0) m hv
  refine ⟨K, hK, ?_⟩
  intro Ω _ P _ Z' Y hZ' hY fuel steps i0 tl grid δ hδ ha hm
  have hprob : ∀ j h, 0 < h → IsProbabilityMeasure (law j h) := by
    intro j h hh
    obtain ⟨ν, h1, h2⟩ := hdraw j 0 (-h) (by linarith)
    have := h2 (by linarith)
    rw [neg_neg] at this
    rw [← this]
    exact h1.isProb
  have hZr := increments_reflect hZ'
  rw [reflect_Icc] at hZr
  exact coupling_of_close_back hS hdt hcoef hinit hdraw hT hL hZ'
    (hclose (noises_of_increments hprob hmo hZr) (solves_reflect hY) hδ) ha hm

/-- **C92** (expectations). The expectation of any function of the values simulated for a time `t` of the timeline, before
`t0`, that is Lipschitz of constant `M`, differs from that of the solution by at most `M*√(K*δ)`, where `δ` is the longest
step. -/
theorem C92_expectation (hS : SDEOk S) (hdt : S.sources.lookup idT = some dtSource)
    (hcoef : ∀ t x, (equation S).coef t x = .ok fun id => c id t x) (hinit : S.init t0 = .ok x0)
    [Nonempty ((equation S).Stochastic idT)] (hdraw : (equation S).DrawsNoiseBack idT μ law) {T L : ℝ} (hT : 0 ≤ T)
    (hL : LipschitzCoefs (c idT) (fun j : (equation S).Stochastic idT => c j.1) (t0 - T) T L)
    {m v : (equation S).Stochastic idT → ℝ} (hv : ∀ j, 0 < v j) (hmo : ∀ j, HasMoments (law j) (m j) (v j)) :
    ∃ K ≥ 0, ∀ {Ω : Type} [MeasurableSpace Ω] {P : Measure Ω} [IsProbabilityMeasure P]
      {Z : ℝ → Ω → (equation S).Stochastic idT → ι → ℝ} {Y : ℝ → Ω → ι → ℝ},
      IncrementsBack P t0 (Set.Icc (t0 - T) t0) (fun h => Measure.pi fun j => law j h) Z →
      SolvesBack P (c idT) (fun j : (equation S).Stochastic idT => c j.1) t0 T (if S.log then S.logX x0 else x0)
        (fun u ω p => Z u ω p.1 p.2) Y →
      ∀ {fuel : ℕ} {steps : Steps ℝ} {i0 : ℤ} {tl : TArr ℝ} {grid : List ℝ} {δ : ℝ}, 0 ≤ δ →
        Along fuel steps i0 tl grid t0 → Mesh grid δ →
        ∃ (X : ℝ → σ → ι → ℝ) (st : σ → σ),
          (∀ s, S.call fuel steps i0 tl s = .ok (tl.data.map fun t => some
            (if S.log then S.expO (S.letX t (X t s)) else S.letX t (X t s)), st s)) ∧
          ∀ t ∈ tl.data, t ∈ Set.Icc (t0 - T) t0 → ∀ (φ : (ι → ℝ) → ℝ) (M : ℝ), 0 ≤ M →
            (∀ x y, |φ x - φ y| ≤ M * √(∑ i, (x i - y i) ^ 2)) →
            Integrable (fun s => φ (X t s)) μ ∧ Integrable (fun ω => φ (Y t ω)) P ∧
            |∫ s, φ (X t s) ∂μ - ∫ ω, φ (Y t ω) ∂P| ≤ M * √(K * δ) := by
  obtain ⟨K, hK, h⟩ := C92_coupling hS hdt hcoef hinit hdraw hT hL hv hmo
  refine ⟨K, hK, ?_⟩
  intro Ω _ P _ Z Y hZ hY fuel steps i0 tl grid δ hδ ha hm
  obtain ⟨X, X', st, e1, e2, e3⟩ := h hZ hY hδ ha hm
  refine ⟨X, st, e1, fun t ht htI φ M hM hφ => ?_⟩
  obtain ⟨hl, hms⟩ := e3 t ht htI
  have hu : Measurable fun (w : {t : ℝ // t ∈ tl.data ∧ t ∈ Set.Icc (t0 - T) t0} × ι → ℝ) (i : ι) =>
      w (⟨t, ht, htI⟩, i) := measurable_pi_lambda _ fun i => measurable_pi_apply _
  exact expectation_of_coupling (e2.comp hu) hl (hY.memLp t htI) hms hM hφ

/-- **C92** (laws). Given simulations with steps shorter and shorter, the joint law of the values simulated, at any times
common to all timelines, from `t0` back to `t0 - T`, converges to that of the solution. -/
theorem C92_law (hS : SDEOk S) (hdt : S.sources.lookup idT = some dtSource)
    (hcoef : ∀ t x, (equation S).coef t x = .ok fun id => c id t x) (hinit : S.init t0 = .ok x0)
    [Nonempty ((equation S).Stochastic idT)] (hdraw : (equation S).DrawsNoiseBack idT μ law) {T L : ℝ} (hT : 0 ≤ T)
    (hL : LipschitzCoefs (c idT) (fun j : (equation S).Stochastic idT => c j.1) (t0 - T) T L)
    {m v : (equation S).Stochastic idT → ℝ} (hv : ∀ j, 0 < v j) (hmo : ∀ j, HasMoments (law j) (m j) (v j))
    {Ω : Type} [MeasurableSpace Ω] {P : Measure Ω} [IsProbabilityMeasure P]
    {Z : ℝ → Ω → (equation S).Stochastic idT → ι → ℝ} {Y : ℝ → Ω → ι → ℝ}
    (hZ : IncrementsBack P t0 (Set.Icc (t0 - T) t0) (fun h => Measure.pi fun j => law j h) Z)
    (hY : SolvesBack P (c idT) (fun j : (equation S).Stochastic idT => c j.1) t0 T (if S.log then S.logX x0 else x0)
        (fun u ω p => Z u ω p.1 p.2) Y)
    {fuel : ℕ → ℕ} {steps : ℕ → Steps ℝ} {i0 : ℕ → ℤ} {tl : ℕ → TArr ℝ} {grid : ℕ → List ℝ} {δ : ℕ → ℝ}
    (hδ : ∀ q, 0 ≤ δ q) (hδ0 : Tendsto δ atTop (𝓝 0)) (ha : ∀ q, Along (fuel q) (steps q) (i0 q) (tl q) (grid q) t0)
    (hm : ∀ q, Mesh (grid q) (δ q)) (J : Finset ℝ)
    (hJt : ∀ q, ∀ t ∈ J, t ∈ (tl q).data) (hJI : ∀ t ∈ J, t ∈ Set.Icc (t0 - T) t0) :
    ∃ (X : ℕ → ℝ → σ → ι → ℝ) (st : ℕ → σ → σ),
      (∀ q s, S.call (fuel q) (steps q) (i0 q) (tl q) s = .ok ((tl q).data.map fun t => some
        (if S.log then S.expO (S.letX t (X q t s)) else S.letX t (X q t s)), st q s)) ∧
      TendstoInDistribution (fun q s (p : J × ι) => X q p.1 s p.2) atTop
        (fun ω (p : J × ι) => Y p.1 ω p.2) (fun _ => μ) P := by
  obtain ⟨K, hK, h⟩ := C92_coupling hS hdt hcoef hinit hdraw hT hL hv hmo
  choose X X' st e1 e2 e3 using fun q => h hZ hY (hδ q) (ha q) (hm q)
  refine ⟨X, st, e1, law_of_coupling (X' := X') (B := fun q => K * δ q) (by simpa using hδ0.const_mul K) (fun q => ?_)
    (fun q t ht => (e3 q t (hJt q t ht) (hJI t ht)).1) (fun t ht => hY.memLp t (hJI t ht))
    fun q t ht => (e3 q t (hJt q t ht) (hJI t ht)).2⟩
  have hu : Measurable fun (w : {t : ℝ // t ∈ (tl q).data ∧ t ∈ Set.Icc (t0 - T) t0} × ι → ℝ)
      (p : J × ι) => w (⟨p.1, hJt q _ p.1.2, hJI _ p.1.2⟩, p.2) :=
    measurable_pi_lambda _ fun p => measurable_pi_apply _
  exact (e2 q).comp hu

end

/-! ### Noise of the sources of the library -/

/-- The opposite of a sum of jumps is a sum of opposite jumps. -/
theorem compoundPoisson_neg (m : ℝ) (ν : Measure ℝ) [IsProbabilityMeasure ν] :
    (compoundPoisson m ν).map (fun x => -x) = compoundPoisson m (ν.map fun x => -x) := by
  have hn : Measurable fun x : ℝ => -x := measurable_neg
  have : IsProbabilityMeasure (ν.map fun x => -x) := Measure.isProbabilityMeasure_map hn.aemeasurable
  have hpi : Measurable fun (z : ℕ → ℝ) i => -z i := by fun_prop
  have e : Measure.infinitePi (fun _ : ℕ => ν.map fun x => -x) =
      (Measure.infinitePi fun _ : ℕ => ν).map fun z i => -z i :=
    (Measure.infinitePi_map_pi (μ := fun _ : ℕ => ν) (f := fun _ x => -x) fun _ => hn).symm
  unfold compoundPoisson
  rw [Measure.map_map hn measurable_sumTo, e]
  have h := Measure.map_prod_map (poissonMeasure m.toNNReal) (Measure.infinitePi fun _ : ℕ => ν) measurable_id hpi
  rw [Measure.map_id] at h
  rw [h, Measure.map_map measurable_sumTo (measurable_id.prodMap hpi)]
  congr 1
  funext z
  simp

section
variable {σ O : Type} [MeasurableSpace σ] {μ : Measure σ} [IsProbabilityMeasure μ]
  {paths : ℕ} {wshape : List ℕ} {rng : Rng σ} {draw : (List ℕ → ℝ) → List ℕ → σ → (List ℕ → ℤ) × σ}

/-- **C92** (sources). Over steps backwards, the sources of the library draw such noise: the Wiener source as it does
forwards, the compound Poisson source with the same number of jumps, of the opposite sign. -/
theorem C92_sources (hr : NormalDraws μ rng) (hd : PoissonDraws μ draw) (hne : Nonempty (Cells (wshape ++ [paths])))
    {l : ℝ} (hl : 0 ≤ l) {y : ℝ → Py (Rvs ℝ σ)} {rvs : Rvs ℝ σ} (hy : ∀ t, y t = .ok rvs) {ν : Measure ℝ}
    [IsProbabilityMeasure ν] (hv : VariatesLaw μ ν rvs) {S : SDE ℝ (Cells (wshape ++ [paths]) → ℝ) O ℕ σ}
    (hsrc : S.sources = [(idT, dtSource), (idW, wienerCells (wshape ++ [paths]) ⟨paths, wshape, .none⟩ rng),
      (idJ, cpoissonNoise (wshape ++ [paths]) ⟨paths, wshape, poissonCall ⟨paths, wshape, .arr (.scalar l)⟩ draw, y⟩)]) :
    (equation S).DrawsNoiseBack idT μ (jumpNoise idJ l (ν.map fun x => -x)) := by
  rintro ⟨j, hj⟩ t dt hdt
  have h : j = idW ∨ j = idJ := by
    simp only [equation, hsrc, List.map_cons, List.map_nil, List.toFinset_cons, List.toFinset_nil, Finset.mem_erase,
      Finset.mem_insert, Finset.notMem_empty, or_false] at hj
    tauto
  rcases h with rfl | rfl
  · have hn := C66_noise (W := ⟨paths, wshape, .none⟩) rfl hr t dt
    have he : (equation S).noise idW t dt =
        wienerCells (wshape ++ [paths]) ⟨paths, wshape, .none⟩ rng t dt := by
      simp only [equation, hsrc]
      rfl
    refine ⟨_, he ▸ hn, fun hneg => ?_⟩
    simp only [jumpNoise, if_neg (show idW ≠ idJ by decide), abs_of_neg hneg]
    congr!
  · have hn := C66_source (S := ⟨paths, wshape, poissonCall ⟨paths, wshape, .arr (.scalar l)⟩ draw, y⟩) (t := t) hd rfl
      hne hdt (.const _) (by simp [Arr.scalar, BcOk, bcOkRev]) (fun c _ => hl) (hy _) hv
    have he : (equation S).noise idJ t dt = cpoissonNoise (wshape ++ [paths])
        ⟨paths, wshape, poissonCall ⟨paths, wshape, .arr (.scalar l)⟩ draw, y⟩ t dt := by
      simp only [equation, hsrc]
      rfl
    refine ⟨_, he ▸ hn, fun hneg => ?_⟩
    simp only [jumpNoise, if_true, abs_of_neg hneg, sign_neg hneg, SignType.coe_neg_one, neg_one_mul,
      compoundPoisson_neg]
    congr!

end

/-! ### Examples -/

noncomputable abbrev exJumpLawB : Measure ℝ := exJumpLaw.map fun x => -x

theorem exJumpLawB_eq : exJumpLawB = gaussianReal 1 ((1 / 2 : ℝ) ^ 2).toNNReal := by
  rw [exJumpLawB, exJumpLaw, gaussianReal_map_neg, neg_neg]

theorem exMerton_back : (equation exMerton).DrawsNoiseBack idT exState (jumpNoise idJ 3 exJumpLawB) :=
  C92_sources (itemRng_draws stdNormal) (itemDraw_draws stdNormal) exCells (by norm_num) (fun _ => rfl) (by
    rw [exJumpLaw, ← stdNormal_affine]
    refine rvsOf_law (by fun_prop) (fun z => ?_) (itemSample_draws stdNormal)
    simp only [frozen]
    rw [if_neg (by norm_num)]) rfl

theorem exJumpLawB_sq : 0 < ∫ x, x ^ 2 ∂exJumpLawB := by
  have h := ProbabilityTheory.variance_eq_sub
    (memLp_id_gaussianReal (μ := 1) (v := ((1 / 2 : ℝ) ^ 2).toNNReal) 2)
  rw [variance_id_gaussianReal] at h
  simp only [id_eq, integral_id_gaussianReal, Pi.pow_apply] at h
  rw [Real.coe_toNNReal _ (by norm_num)] at h
  rw [exJumpLawB_eq]
  linarith

/-- Noise for the example, at all times from 0 to 1, and the solution that has value 10 at time 1. -/
theorem exists_back_solution :
    ∃ (Ω : Type) (_ : MeasurableSpace Ω) (P : Measure Ω) (Z : ℝ → Ω → exIds → Cells ([2] ++ [3]) → ℝ)
      (Y : ℝ → Ω → Cells ([2] ++ [3]) → ℝ), IsProbabilityMeasure P ∧
      IncrementsBack P 1 (Set.Icc (1 - 1) 1) (fun h => Measure.pi fun j : exIds => jumpNoise idJ 3 exJumpLawB j h) Z ∧
      SolvesBack P (fun _ x i => exCoef idT * x i) (fun (j : exIds) _ x i => exCoef j.1 * x i) 1 1
        (fun _ => 10) (fun u ω c => Z u ω c.1 c.2) Y := by
  have h2 : MemLp id 2 exJumpLawB := by
    rw [exJumpLawB_eq]
    exact memLp_id_gaussianReal 2
  haveI : IsProbabilityMeasure exJumpLawB := by rw [exJumpLawB_eq]; infer_instance
  obtain ⟨Ω, mΩ, P, Z, hP, hI, hN⟩ := exists_noise_paths (ι := Cells ([2] ++ [3])) exIds (by norm_num : (0 : ℝ) ≤ 3)
    exJumpLawB h2
  have hD : {u : ℝ | 2 * 1 - u ∈ Set.Icc (1 : ℝ) (1 + 1)} = Set.Icc (1 - 1) 1 := by
    ext u
    simp only [Set.mem_setOf_eq, Set.mem_Icc]
    constructor <;> rintro ⟨h1, h2⟩ <;> constructor <;> linarith
  have hI' := increments_back hI
  rw [hD] at hI'
  have hL := exLipschitzN (ι := Cells ([2] ++ [3])) (exCoef idT) (fun j : exIds => exCoef j.1) (1 - 1) 1
  have hv : ∀ j : exIds, (0 : ℝ) < if j.1 = idJ then 3 * ∫ x, x ^ 2 ∂exJumpLawB else 1 := fun j => by
    split_ifs
    · exact mul_pos (by norm_num) exJumpLawB_sq
    · exact one_pos
  haveI : Nonempty exIds := ⟨exW⟩
  obtain ⟨K0, -, h0⟩ := exists_solution_all zero_le_one (lipschitz_reflect hL) (fun _ => 10) _ hv
  obtain ⟨Y, hY, -⟩ := h0 hN
  refine ⟨Ω, mΩ, P, fun u => Z (2 * 1 - u), fun u => Y (2 * 1 - u), hP, hI', solves_reflect_inv ?_⟩
  simpa only [sub_sub_cancel] using hY

theorem exMoments_back : (∀ j : exIds, (0 : ℝ) < if j.1 = idJ then 3 * ∫ x, x ^ 2 ∂exJumpLawB else 1) ∧
    ∀ j : exIds, HasMoments (jumpNoise (ι := Cells ([2] ++ [3])) idJ 3 exJumpLawB j)
      (if j.1 = idJ then 3 * ∫ x, x ∂exJumpLawB else 0) (if j.1 = idJ then 3 * ∫ x, x ^ 2 ∂exJumpLawB else 1) := by
  have h2 : MemLp id 2 exJumpLawB := by
    rw [exJumpLawB_eq]
    exact memLp_id_gaussianReal 2
  haveI : IsProbabilityMeasure exJumpLawB := by rw [exJumpLawB_eq]; infer_instance
  refine ⟨fun j => ?_, fun j => jumpDiffusion_moments (by norm_num) h2 j⟩
  split_ifs
  · exact mul_pos (by norm_num) exJumpLawB_sq
  · exact one_pos

/-- The simulation, with two steps backwards, against the solution driven by paths of the same noise. -/
example : ∃ (Ω : Type) (_ : MeasurableSpace Ω) (P : Measure Ω) (Z : ℝ → Ω → exIds → Cells ([2] ++ [3]) → ℝ) (K : ℝ)
    (X : ℝ → (ℕ → Item ℝ) → Cells ([2] ++ [3]) → ℝ) (Y : ℝ → Ω → Cells ([2] ++ [3]) → ℝ) (st : (ℕ → Item ℝ) → ℕ → Item ℝ),
    SolvesBack P (fun _ x i => exCoef idT * x i) (fun (j : exIds) _ x i => exCoef j.1 * x i) 1 1
      (fun _ => 10) (fun u ω c => Z u ω c.1 c.2) Y ∧
    (∀ s, exMerton.call 10 .none (-1) ⟨[3], [0, 1 / 2, 1]⟩ s =
      .ok ([some (X 0 s), some (X (1 / 2) s), some (X 1 s)], st s)) ∧
    ∀ i, |∫ s, |X 0 s i| ∂exState - ∫ ω, |Y 0 ω i| ∂P| ≤ √(K * (1 / 2)) := by
  obtain ⟨Ω, mΩ, P, Z, Y, hP, hI, hY⟩ := exists_back_solution
  have hL := exLipschitzN (ι := Cells ([2] ++ [3])) (exCoef idT) (fun j : exIds => exCoef j.1) (1 - 1) 1
  obtain ⟨K, -, h⟩ := C92_expectation (S := exMerton) (c := fun id _ x i => exCoef id * x i) (t0 := 1) (T := 1)
    (exJumps_ok _ _) rfl (exJumps_coef _ _) rfl exMerton_back zero_le_one hL exMoments_back.1 exMoments_back.2
  obtain ⟨X, st, e1, e2⟩ := h hI hY (δ := 1 / 2) (by norm_num) exAlongB exMeshB
  refine ⟨Ω, mΩ, P, Z, K, X, Y, st, hY, e1, fun i => ?_⟩
  have := (e2 0 (by simp) (by norm_num) (fun x => |x i|) 1 zero_le_one fun x y => by
    rw [one_mul]
    refine (abs_abs_sub_abs_le_abs_sub _ _).trans (Real.le_sqrt_of_sq_le ?_)
    rw [sq_abs]
    exact Finset.single_le_sum (f := fun c => (x c - y c) ^ 2) (fun p _ => sq_nonneg _) (Finset.mem_univ i)).2.2
  rwa [one_mul] at this

/-- timelines `0, 1` with more and more steps in between, followed backwards -/
theorem exAlongSeqB : ∃ grid : ℕ → List ℝ, (∀ q, Mesh (grid q) (1 / (q + 1))) ∧
    ∀ q, Along (grid q).length (.iter (grid q)) 1 ⟨[2], [0, 1]⟩ (grid q) 1 := by
  choose grid h1 h2 h3 h4 h5 using fun q : ℕ => exists_grid (t0 := 0) (T := 1) (t := 1) (δ := 1 / ((q : ℝ) + 1))
    (by positivity) (by norm_num)
  refine ⟨grid, h5, fun q => ⟨⟨rfl, by simp⟩, ⟨1, ⟨by simp, .inl rfl⟩, rfl⟩, by rintro n ⟨⟩, ⟨h1 q, fun u => ?_⟩, le_rfl⟩⟩
  simp only [Requested, List.mem_cons, List.not_mem_nil, or_false, exists_eq_or_imp, exists_eq_left]
  constructor
  · intro hu
    have := h4 q u hu
    exact .inr ⟨hu, .inl this.1, .inr (by linarith [this.2])⟩
  · rintro ((rfl | rfl) | ⟨hu, -⟩)
    · exact h2 q
    · exact h3 q
    · exact hu

/-- Simulations with finer and finer steps. -/
example : ∃ (Ω : Type) (_ : MeasurableSpace Ω) (P : Measure Ω) (_ : IsProbabilityMeasure P)
    (Z : ℝ → Ω → exIds → Cells ([2] ++ [3]) → ℝ) (grid : ℕ → List ℝ)
    (X : ℕ → ℝ → (ℕ → Item ℝ) → Cells ([2] ++ [3]) → ℝ) (Y : ℝ → Ω → Cells ([2] ++ [3]) → ℝ)
    (st : ℕ → (ℕ → Item ℝ) → ℕ → Item ℝ),
    SolvesBack P (fun _ x i => exCoef idT * x i) (fun (j : exIds) _ x i => exCoef j.1 * x i) 1 1
      (fun _ => 10) (fun u ω c => Z u ω c.1 c.2) Y ∧
    (∀ q s, exMerton.call (grid q).length (.iter (grid q)) 1 ⟨[2], [0, 1]⟩ s =
      .ok ([some (X q 0 s), some (X q 1 s)], st q s)) ∧
    TendstoInDistribution (fun q s (p : ({0} : Finset ℝ) × Cells ([2] ++ [3])) => X q p.1 s p.2) atTop
      (fun ω (p : ({0} : Finset ℝ) × Cells ([2] ++ [3])) => Y p.1 ω p.2) (fun _ => exState) P := by
  obtain ⟨Ω, mΩ, P, Z, Y, hP, hI, hY⟩ := exists_back_solution
  have hL := exLipschitzN (ι := Cells ([2] ++ [3])) (exCoef idT) (fun j : exIds => exCoef j.1) (1 - 1) 1
  obtain ⟨grid, g1, g2⟩ := exAlongSeqB
  obtain ⟨X, st, e1, e2⟩ := C92_law (S := exMerton) (c := fun id _ x i => exCoef id * x i) (t0 := 1) (T := 1)
    (exJumps_ok _ _) rfl (exJumps_coef _ _) rfl exMerton_back zero_le_one hL exMoments_back.1 exMoments_back.2 hI hY
    (fun q => by positivity)
    tendsto_one_div_add_atTop_nhds_zero_nat g2 g1 {0}
    (fun q t ht => by rw [Finset.mem_singleton.1 ht]; simp)
    (fun t ht => by rw [Finset.mem_singleton.1 ht]; norm_num)
  exact ⟨Ω, mΩ, P, hP, Z, grid, X, Y, st, hY, e1, e2⟩

end Sdepy
